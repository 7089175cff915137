import Verif.Util.While
import Mathlib.Analysis.SpecialFunctions.Pow.Real

/-!
# Model of `utilities.time_geometric`

Source: `/repo/pygfunction/utilities.py`, l. 322-358.  Floats are real numbers.  The fixed
point iteration is modelled with the big-step semantics `Verif.Loop`; in floating point the
iteration may also end through overflow and NaN (`Nt = 1`), which is not modelled.
-/

namespace Verif.Util

/-- Loop variables (l. 348-349). -/
structure GeoVars where
  dr : ℝ
  r : ℝ

/-- l. 348-349. -/
noncomputable def geoInit : GeoVars := ⟨10 ^ 99, 2⟩

/-- `while np.abs(dr) > 1.0e-10` (l. 350). -/
def geoCond (s : GeoVars) : Prop := (1 : ℝ) / 10 ^ 10 < |s.dr|

/-- Loop body (l. 351-352). -/
noncomputable def geoBody (dt tmax : ℝ) (Nt : ℕ) (s : GeoVars) : GeoVars :=
  let dr := (1 + tmax / dt * (s.r - 1)) ^ ((1 : ℝ) / (Nt : ℝ)) - s.r
  ⟨dr, s.r + dr⟩

/-- The times of the expanding branch for the expansion rate `r` (l. 353-354). -/
noncomputable def geoTimes (dt tmax : ℝ) (Nt : ℕ) (r : ℝ) : List ℝ :=
  ((List.range Nt).map fun j => dt * (1 - r ^ (j + 1)) / (1 - r)).set (Nt - 1) tmax

/-- `time_geometric(dt, tmax, Nt)` returns `time` (`Nt ≥ 1`; for `Nt = 0` the code
raises). -/
def TimeGeometric (dt tmax : ℝ) (Nt : ℕ) (time : List ℝ) : Prop :=
  if tmax > Nt * dt then
    ∃ s, Loop geoCond (geoBody dt tmax Nt) geoInit s ∧ time = geoTimes dt tmax Nt s.r
  else time = (List.range Nt).map fun j : ℕ => dt * ((j : ℝ) + 1)

end Verif.Util
