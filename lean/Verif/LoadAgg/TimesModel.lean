import Mathlib.Algebra.Order.Floor.Semiring
import Verif.LoadAgg.CJModel
import Verif.LoadAgg.LiuModel
import Verif.LoadAgg.MLAAModel

/-!
# Model of the constructors of the load aggregation schemes and of the times they require

Source: `/repo/pygfunction/load_aggregation.py`, `MLAA.__init__`, `get_times_for_simulation` and
`_build_cells` (l. 262-269, 357-369, 430-470), `Liu.__init__`, `get_times_for_simulation` and
`_build_cells` (l. 514-521, 605-617, 674-721).

Simplifications: floats are elements of an ordered field with a ceiling; `tmax ≥ 0` (for
`tmax/dt ≤ -1` numpy refuses the negative shape of the storage).
-/

namespace Verif.LoadAgg

variable {K : Type*} [Field K] [LinearOrder K] [IsStrictOrderedRing K] [FloorSemiring K]

/-- `Nt = int(np.ceil(tmax/dt))` (l. 452, 703). -/
def numSteps (dt tmax : K) : ℕ := ⌈tmax / dt⌉₊

/-- `get_times_for_simulation` of MLAA and Liu (l. 369, 617):
`np.array([(i+1)*self.dt for i in range(self.Nt)])`. -/
def timesForSimulation (dt tmax : K) : List K :=
  (List.range (numSteps dt tmax)).map fun i : ℕ => ((i : K) + 1) * dt

/-- `MLAA(dt, tmax, N0, N1, N2, N3)`: the stored sizes (l. 262-269, 452-463). -/
def mlaaOf (dt tmax : K) (N0 N1 N2 N3 : ℕ) : MLAA.Params := ⟨numSteps dt tmax, N0, N1, N2, N3⟩

/-- `Liu(dt, tmax, N1, N2, N3, W1, W2, W3)`: the stored sizes and the number of large cells
`N4 = int(np.ceil(self.Nt/(N1*N2*N3)))` (l. 514-521, 703-721). -/
def liuOf (dt tmax : K) (N1 N2 N3 W1 W2 W3 : ℕ) : Liu.Params :=
  ⟨N1, N2, N3, W1, W2, W3, ⌈((numSteps dt tmax : ℕ) : K) / ((N1 * N2 * N3 : ℕ) : K)⌉₊⟩

/-- The array `g_d` built by the user: the response factors at the required times.  Entries
beyond the array are never read by the theorems' calls; here they are zero. -/
def responseArray {S : Type*} (g : S → S → K → K) (times : List K) : S → S → ℕ → K :=
  fun i j k => (times.map (g i j)).getD k 0

end Verif.LoadAgg
