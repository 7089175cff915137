import Verif.Util.While
import Mathlib.Analysis.SpecialFunctions.Log.Base
import Mathlib.Analysis.SpecialFunctions.Pow.Real
import Mathlib.Analysis.SpecialFunctions.Trigonometric.Basic

/-!
# Model of the friction factor, convection coefficients and fluid resistances

Models `pygfunction/pipes.py`: `fluid_friction_factor_circular_pipe` (l. 3039-3094), `convective_heat_transfer_coefficient_circular_pipe` (l. 3097-3187),
`convective_heat_transfer_coefficient_concentric_annulus` (l. 3190-3308), `conduction_thermal_resistance_circular_pipe` (l. 3311-3335),
`_Nusselt_number_turbulent_flow` (l. 3557-3618), `fluid_to_pipe_thermal_resistance` (l. 3621-3741) and `fluid_to_fluid_thermal_resistance` (l. 3744-3839).

Simplifications: exact arithmetic; warnings are not modelled.  Functions that contain a `while` loop are relations between arguments and result, since the
loop might not terminate.  At zero flow rate the friction factor is `64/0`, which is `0` here and `inf` in numpy; no caller uses it in laminar flow.
-/

noncomputable section

namespace Verif.Pipe.Conv

open Real

/-- Fluid properties `mu_f, rho_f, k_f, cp_f`. -/
structure Fluid where
  mu : ℝ
  rho : ℝ
  k : ℝ
  cp : ℝ

/-- Loop variables `fDarcy`, `df`. -/
structure FS where
  f : ℝ
  df : ℝ

/-- `one_over_sqrt_f` (l. 3087-3088). -/
def oneOver (E Re f : ℝ) : ℝ := -2 * logb 10 (E / 3.7 + 2.51 / (Re * √f))

/-- `while abs(df/fDarcy) > tol` (l. 3086). -/
def fCond (tol : ℝ) (s : FS) : Prop := |s.df / s.f| > tol

/-- Loop body (l. 3087-3091). -/
def fBody (E Re : ℝ) (s : FS) : FS :=
  let fNew := 1 / oneOver E Re s.f ^ 2
  ⟨fNew, fNew - s.f⟩

/-- Friction factor at relative roughness `E` and Reynolds number `Re` (l. 3079-3094). -/
def FrictionAt (E Re tol f : ℝ) : Prop :=
  if Re < 2300 then f = 64 / Re
  else ∃ s, Loop (fCond tol) (fBody E Re) ⟨0.02, 10 ^ 99⟩ s ∧ f = s.f

/-- Reynolds number in a circular pipe (l. 3069-3077, 3145-3152). -/
def reynolds (m r : ℝ) (fl : Fluid) : ℝ :=
  let D := 2 * r
  let Vflow := |m| / fl.rho
  let A := π * r ^ 2
  let V := Vflow / A
  fl.rho * V * D / fl.mu

/-- `fluid_friction_factor_circular_pipe` (l. 3039-3094). -/
def Friction (m r : ℝ) (fl : Fluid) (eps tol f : ℝ) : Prop := FrictionAt (eps / (2 * r)) (reynolds m r fl) tol f

/-- `Pr` (l. 3154, 3265). -/
def prandtl (fl : Fluid) : ℝ := fl.cp * fl.mu / fl.k

/-- `_Nusselt_number_turbulent_flow` (l. 3616-3618). -/
def gnielinski (Re Pr f : ℝ) : ℝ := 0.125 * f * (Re - 1000) * Pr / (1 + 12.7 * √(0.125 * f) * (Pr ^ ((2 : ℝ) / 3) - 1))

/-- `convective_heat_transfer_coefficient_circular_pipe` (l. 3097-3187). -/
def Circular (m r : ℝ) (fl : Fluid) (eps h : ℝ) : Prop :=
  ∃ f, Friction m r fl eps (1 / 10 ^ 6) f ∧
    let D := 2 * r
    let Re := reynolds m r fl
    let Pr := prandtl fl
    let Nu :=
      if Re ≥ 4000 then gnielinski Re Pr f
      else if 2300 < Re then
        let NuTurb := gnielinski 4000 Pr f
        let gamma := (Re - 2300) / (4000 - 2300)
        (1 - gamma) * 3.66 + gamma * NuTurb
      else 3.66
    h = fl.k * Nu / D

/-- Reynolds number in an annulus (l. 3252-3263). -/
def reynoldsA (m ri ro : ℝ) (fl : Fluid) : ℝ :=
  let Dh := 2 * (ro - ri)
  let A := π * (ro ^ 2 - ri ^ 2)
  let Vdot := |m| / fl.rho
  let V := Vdot / A
  fl.rho * V * Dh / fl.mu

/-- `convective_heat_transfer_coefficient_concentric_annulus` (l. 3190-3308). -/
def Annulus (m ri ro : ℝ) (fl : Fluid) (eps : ℝ) (h : ℝ × ℝ) : Prop :=
  let Dh := 2 * (ro - ri)
  let rh := Dh / 2
  let Re := reynoldsA m ri ro fl
  let Pr := prandtl fl
  let rs := ri / ro
  ∃ f, Friction m rh fl eps (1 / 10 ^ 6) f ∧
    let Nu : ℝ × ℝ :=
      if Re ≥ 4000 then (gnielinski Re Pr f, gnielinski Re Pr f)
      else if 2300 < Re then
        let inLam := 3.66 + 1.2 * rs ^ (-0.8 : ℝ)
        let outLam := 3.66 + 1.2 * rs ^ (0.5 : ℝ)
        let NuTurb := gnielinski 4000 Pr f
        let gamma := (Re - 2300) / (4000 - 2300)
        ((1 - gamma) * inLam + gamma * NuTurb, (1 - gamma) * outLam + gamma * NuTurb)
      else (3.66 + 1.2 * rs ^ (-0.8 : ℝ), 3.66 + 1.2 * rs ^ (0.5 : ℝ))
    h = (fl.k * Nu.1 / Dh, fl.k * Nu.2 / Dh)

/-- `conduction_thermal_resistance_circular_pipe` (l. 3333). -/
def conduction (ri ro kp : ℝ) : ℝ := log (ro / ri) / (2 * π * kp)

/-- `PipeType` (`pygfunction/enums.py` l. 5-25). -/
inductive PipeType
  | coaxialIn | coaxialOut | doubleParallel | doubleSeries | single
  deriving DecidableEq

/-- Errors. -/
inductive Err
  | value
  deriving DecidableEq

/-- Radii and conductivities: scalars for U-tubes, pairs for coaxial pipes. -/
structure Dim where
  rIn : Fin 2 → ℝ
  rOut : Fin 2 → ℝ
  kp : Fin 2 → ℝ

/-- `fluid_to_pipe_thermal_resistance` (l. 3621-3741); U-tubes read index 0 of `Dim`. -/
def FluidToPipe (t : PipeType) (m : ℝ) (d : Dim) (eps : ℝ) (fl : Fluid) (R : ℝ) : Prop :=
  match t with
  | .single | .doubleSeries =>
    ∃ h, Circular m (d.rIn 0) fl eps h ∧ R = conduction (d.rIn 0) (d.rOut 0) (d.kp 0) + 1 / (h * 2 * π * d.rIn 0)
  | .doubleParallel =>
    ∃ h, Circular (m / 2) (d.rIn 0) fl eps h ∧ R = conduction (d.rIn 0) (d.rOut 0) (d.kp 0) + 1 / (h * 2 * π * d.rIn 0)
  | .coaxialIn =>
    ∃ h, Annulus m (d.rOut 1) (d.rIn 0) fl eps h ∧ R = conduction (d.rIn 0) (d.rOut 0) (d.kp 0) + 1 / (h.2 * 2 * π * d.rIn 0)
  | .coaxialOut =>
    ∃ h, Annulus m (d.rOut 0) (d.rIn 1) fl eps h ∧ R = conduction (d.rIn 1) (d.rOut 1) (d.kp 1) + 1 / (h.2 * 2 * π * d.rIn 1)

/-- `fluid_to_fluid_thermal_resistance` (l. 3744-3839). -/
def FluidToFluid (t : PipeType) (m : ℝ) (d : Dim) (eps : ℝ) (fl : Fluid) (R : Except Err ℝ) : Prop :=
  match t with
  | .coaxialIn =>
    ∃ h a, Circular m (d.rIn 1) fl eps h ∧ Annulus m (d.rOut 1) (d.rIn 0) fl eps a ∧
      R = .ok (1 / (h * 2 * π * d.rIn 1) + conduction (d.rIn 1) (d.rOut 1) (d.kp 1) + 1 / (a.1 * 2 * π * d.rOut 1))
  | .coaxialOut =>
    ∃ h a, Circular m (d.rIn 0) fl eps h ∧ Annulus m (d.rOut 0) (d.rIn 1) fl eps a ∧
      R = .ok (1 / (h * 2 * π * d.rIn 0) + conduction (d.rIn 0) (d.rOut 0) (d.kp 0) + 1 / (a.1 * 2 * π * d.rOut 0))
  | _ => R = .error .value

end Verif.Pipe.Conv
