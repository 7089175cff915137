import Verif.LoadAgg.TimesModel
import Verif.Num.FloatModel

/-!
# Model of the constructors of the MLAA and Liu schemes with floating-point numbers

Source: `/repo/pygfunction/load_aggregation.py`, `MLAA._build_cells` (l. 452-463), `Liu._build_cells`
(l. 703-721) and `get_times_for_simulation` (l. 369, 617).

The quotients and products of floats are rounded by `fl`.  `np.ceil` and `int` are exact.  The
quotient of two Python integers is the rounded exact quotient.  Simplification: `tmax ≥ 0`, no
overflow.
-/

noncomputable section

namespace Verif.LoadAgg

/-- `Nt = int(np.ceil(tmax/dt))` (l. 452, 703). -/
def numStepsFl (fl : ℝ → ℝ) (dt tmax : ℝ) : ℕ := ⌈fl (tmax / dt)⌉₊

/-- `np.array([(i+1)*self.dt for i in range(self.Nt)])` (l. 369, 617). -/
def timesFl (fl : ℝ → ℝ) (dt tmax : ℝ) : List ℝ :=
  (List.range (numStepsFl fl dt tmax)).map fun i : ℕ => fl (((i + 1 : ℕ) : ℝ) * dt)

/-- `MLAA(dt, tmax, N0, N1, N2, N3)`: the stored sizes (l. 262-269, 452-463). -/
def mlaaFl (fl : ℝ → ℝ) (dt tmax : ℝ) (N0 N1 N2 N3 : ℕ) : MLAA.Params := ⟨numStepsFl fl dt tmax, N0, N1, N2, N3⟩

/-- `Liu(dt, tmax, N1, N2, N3, W1, W2, W3)`: the stored sizes and `N4 = int(np.ceil(self.Nt/(N1*N2*N3)))`
(l. 514-521, 703-721). -/
def liuFl (fl : ℝ → ℝ) (dt tmax : ℝ) (N1 N2 N3 W1 W2 W3 : ℕ) : Liu.Params :=
  ⟨N1, N2, N3, W1, W2, W3, ⌈fl (((numStepsFl fl dt tmax : ℕ) : ℝ) / ((N1 * N2 * N3 : ℕ) : ℝ))⌉₊⟩

end Verif.LoadAgg
