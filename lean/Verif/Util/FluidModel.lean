import Mathlib.Algebra.Field.Defs
import Mathlib.Data.List.Basic

/-!
# Model of `media.Fluid`

Source: `/repo/pygfunction/media.py`, class `Fluid` (l. 9-195).

The mixtures of the library `scp` are a parameter `lib`: for a kind of mixture and a mass
fraction, either the mixture with its property functions of the temperature, or an error for a
fraction outside the range of the mixture (`none`).  Simplifications: text is a list of ASCII
characters (`upper` of Python also maps other letters); errors of the property functions of the
library (temperatures outside its range) are not modelled; numbers are elements of a field.
-/

namespace Verif.Media

/-- The five classes of the library (l. 2-6). -/
inductive Kind where
  | water
  | propyleneGlycol
  | ethyleneGlycol
  | methylAlcohol
  | ethylAlcohol
  deriving DecidableEq

/-- A mixture of the library: its properties as functions of the temperature. -/
structure Mixture (K : Type*) where
  kind : Kind
  fraction : K
  density : K → K
  viscosity : K → K
  specificHeat : K → K
  conductivity : K → K
  prandtl : K → K

/-- `fluid_str.upper()`. -/
def upper (s : List Char) : List Char := s.map Char.toUpper

def WATER : List Char := ['W', 'A', 'T', 'E', 'R']
def MPG : List Char := ['M', 'P', 'G']
def MEG : List Char := ['M', 'E', 'G']
def MMA : List Char := ['M', 'M', 'A']
def MEA : List Char := ['M', 'E', 'A']
def PROPYLENEGLYCOL : List Char :=
  ['P', 'R', 'O', 'P', 'Y', 'L', 'E', 'N', 'E', 'G', 'L', 'Y', 'C', 'O', 'L']
def ETHYLENEGLYCOL : List Char :=
  ['E', 'T', 'H', 'Y', 'L', 'E', 'N', 'E', 'G', 'L', 'Y', 'C', 'O', 'L']
def METHYLALCOHOL : List Char :=
  ['M', 'E', 'T', 'H', 'Y', 'L', 'A', 'L', 'C', 'O', 'H', 'O', 'L']
def ETHYLALCOHOL : List Char := ['E', 'T', 'H', 'Y', 'L', 'A', 'L', 'C', 'O', 'H', 'O', 'L']

variable {K : Type*} [Field K]

/-- The attributes of a `Fluid` (l. 82-98). -/
structure Fluid (K : Type*) where
  fluid : Mixture K
  T_C : K
  rho : K
  mu : K
  nu : K
  cp : K
  rhoCp : K
  k : K
  Pr : K

/-- The choice of the mixture (l. 65-78).  `Water()` takes no fraction; the argument of the
library for water is zero here. -/
def mixture (lib : Kind → K → Option (Mixture K)) (s : List Char) (percent : K) :
    Option (Mixture K) :=
  let x := percent / 100
  if upper s = WATER then lib .water 0
  else if upper s ∈ [PROPYLENEGLYCOL, MPG] then lib .propyleneGlycol x
  else if upper s ∈ [ETHYLENEGLYCOL, MEG] then lib .ethyleneGlycol x
  else if upper s ∈ [METHYLALCOHOL, MMA] then lib .methylAlcohol x
  else if upper s ∈ [ETHYLALCOHOL, MEA] then lib .ethylAlcohol x
  else none

/-- The attributes set from the mixture, in order (l. 84-98). -/
def ofMixture (m : Mixture K) (T : K) : Fluid K :=
  let rho := m.density T
  let mu := m.viscosity T
  let nu := mu / rho
  let cp := m.specificHeat T
  let rhoCp := rho * cp
  let k := m.conductivity T
  ⟨m, T, rho, mu, nu, cp, rhoCp, k, m.prandtl T⟩

/-- `Fluid(fluid_str, percent, T)` (l. 63-98). -/
def create (lib : Kind → K → Option (Mixture K)) (s : List Char) (percent T : K) :
    Option (Fluid K) :=
  (mixture lib s percent).map fun m => ofMixture m T

namespace Fluid

/-- `fluid.T_C = T`: an assignment by the user. -/
def setT (f : Fluid K) (T : K) : Fluid K := { f with T_C := T }

/-- `density()` (l. 123). -/
def densityM (f : Fluid K) : K := f.fluid.density f.T_C
/-- `dynamic_viscosity()` (l. 135). -/
def dynamicViscosity (f : Fluid K) : K := f.fluid.viscosity f.T_C
/-- `kinematic_viscosity()` (l. 147). -/
def kinematicViscosity (f : Fluid K) : K := f.mu / f.rho
/-- `specific_heat_capacity()` (l. 159). -/
def specificHeatCapacity (f : Fluid K) : K := f.fluid.specificHeat f.T_C
/-- `volumetric_heat_capacity()` (l. 171). -/
def volumetricHeatCapacity (f : Fluid K) : K := f.rho * f.cp
/-- `thermal_conductivity()` (l. 183). -/
def thermalConductivity (f : Fluid K) : K := f.fluid.conductivity f.T_C
/-- `Prandlt_number()` (l. 195). -/
def prandtlNumber (f : Fluid K) : K := f.fluid.prandtl f.T_C

end Fluid

/-- The value of an attribute: a number, the mixture object, or the name. -/
inductive Value (K : Type*) where
  | num (x : K)
  | obj
  | text

/-- `sorted(self.__dict__)` with the values (l. 108-111): upper case sorts before lower case. -/
def Fluid.items (f : Fluid K) : List (String × Value K) :=
  [("Pr", .num f.Pr), ("T_C", .num f.T_C), ("cp", .num f.cp), ("fluid", .obj), ("k", .num f.k),
   ("mu", .num f.mu), ("name", .text), ("nu", .num f.nu), ("rho", .num f.rho),
   ("rhoCp", .num f.rhoCp)]

/-- `f'{value:.5E}'`: a number is formatted (here kept as the number); an object without its own
`__format__` raises `TypeError`, a text raises `ValueError`. -/
def format : Value K → Option K
  | .num x => some x
  | .obj => none
  | .text => none

/-- A dictionary of lists, as an association list. -/
abbrev Dict (K : Type*) := List (String × List K)

/-- `dnary[key].append(v)`: `KeyError` if the key is missing. -/
def Dict.append (d : Dict K) (key : String) (v : K) : Option (Dict K) :=
  if key ∈ d.map Prod.fst then
    some (d.map fun p => if p.1 = key then (p.1, p.2 ++ [v]) else p)
  else none

/-- The loop of l. 110-111: the dictionary as it is left, and whether the loop raised. -/
def appendLoop : Dict K → List (String × Value K) → Dict K × Bool
  | d, [] => (d, false)
  | d, (key, v) :: rest =>
    match (format v).bind fun x => Dict.append d key x with
    | none => (d, true)
    | some d' => appendLoop d' rest

/-- `append_to_dict(dnary)` (l. 106-111): the dictionary as it is left, and whether it raised. -/
def Fluid.appendToDict (f : Fluid K) (d : Dict K) : Dict K × Bool :=
  appendLoop (if d.length = 0 then f.items.map fun p => (p.1, []) else d) f.items

end Verif.Media
