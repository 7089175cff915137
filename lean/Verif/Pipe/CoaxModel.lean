import Verif.Pipe.PoleModel
import Verif.Pipe.UTubeModel

/-!
# Model of the construction of a coaxial borehole from its cross-section

Models `pygfunction/pipes.py`: `Coaxial.__init__` (l. 2580-2606) and `Coaxial.update_thermal_resistances` (l. 2608-2640), which set the delta-circuit
resistances of `UTubeModel` from the cross-section of `PoleModel`.

Simplifications: the memo of `thermal_resistances` is not modelled (see `MemoModel`), and the checks of the geometry are in `GeomModel`.
Equal outer radii, for which numpy would leave zero resistances, are outside of the model: theorems assume that the radii differ.
-/

noncomputable section

namespace Verif.Pipe

/-- Arguments of the constructor: position of the pipes, outer radii of both pipes, radius of the borehole, conductivities of the ground and the grout, order of the
multipoles, length and `reversible_flow`. -/
structure Coax where
  pos : ℂ
  rOut : Fin 2 → ℝ
  rb : ℝ
  ks : ℝ
  kg : ℝ
  J : ℤ
  H : ℝ
  reversible : Bool

namespace Coax
variable (c : Coax)

/-- `r_out.argmin()` and `r_out.argmax()` (l. 2599-2600): the first index in case of equal values. -/
def iInner : Fin 2 := open Classical in if c.rOut 0 ≤ c.rOut 1 then 0 else 1
def iOuter : Fin 2 := open Classical in if c.rOut 1 ≤ c.rOut 0 then 0 else 1

/-- The cross-section given to `thermal_resistances` (l. 2629-2631): one pipe, of the outer radius of the outer pipe. -/
def sec (Rfp : ℝ) : Pole.Sec 1 := ⟨fun _ => c.pos, fun _ => c.rOut c.iOuter, c.rb, c.ks, c.kg, fun _ => Rfp⟩

/-- The borehole after `update_thermal_resistances(R_ff, R_fp)`; `none` if the inverse of the resistance matrix raises.  The entries of `_Rd` are assigned in the order
of l. 2633-2637; here as reciprocals, with `0` for `np.inf`. -/
def tube (Rff Rfp : ℝ) : Option UTube :=
  ((c.sec Rfp).resistances c.J).map fun R =>
    ⟨fun i j => if i = c.iOuter ∧ j = c.iOuter then 1 / R.2 0 0 else if i = c.iOuter ∧ j = c.iInner then 1 / Rff else
      if i = c.iInner ∧ j = c.iOuter then 1 / Rff else 0, c.H, c.reversible⟩

end Coax

end Verif.Pipe
