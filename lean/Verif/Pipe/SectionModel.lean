import Verif.Pipe.PoleModel
import Verif.Pipe.UTubeModel

/-!
# Model of the construction of a single U-tube from its cross-section

Models `pygfunction/pipes.py`: `SingleUTube.__init__` (l. 1074-1092) and `SingleUTube.update_thermal_resistances` (l. 1327-1348), which set the
delta-circuit resistances of `UTubeModel` from the cross-section of `PoleModel`.

Simplifications: the memo of `thermal_resistances` is not modelled (see `MemoModel`), and the checks of the geometry are in `GeomModel`.
-/

noncomputable section

namespace Verif.Pipe

/-- The cross-section with the fluid to outer pipe wall resistance `x` of both pipes (l. 2916-2917: a scalar `R_fp` is repeated). -/
def Pole.Sec.withRfp (s : Pole.Sec 2) (x : ℝ) : Pole.Sec 2 := { s with Rfp := fun _ => x }

/-- The U-tube after `update_thermal_resistances(x)` (l. 1341-1345); `none` if the inverse of the resistance matrix raises. -/
def Pole.Sec.tube (s : Pole.Sec 2) (J : ℤ) (H : ℝ) (reversible : Bool) (x : ℝ) : Option UTube :=
  ((s.withRfp x).resistances J).map fun R => singleUTube R.2 H reversible

end Verif.Pipe
