import Mathlib.Tactic.FieldSimp
import Mathlib.Tactic.NormNum
import Verif.Util.FluidModel
import Verif.Util.SpellLemmas

/-!
# Property C98: fluids
-/

namespace Verif.Media

variable {K : Type*} [Field K]

/-- The documented names and the long names, with the mixture they stand for. -/
def names : List (List Char × Kind) :=
  [(WATER, .water), (MPG, .propyleneGlycol), (MEG, .ethyleneGlycol), (MMA, .methylAlcohol),
   (MEA, .ethylAlcohol), (PROPYLENEGLYCOL, .propyleneGlycol), (ETHYLENEGLYCOL, .ethyleneGlycol),
   (METHYLALCOHOL, .methylAlcohol), (ETHYLALCOHOL, .ethylAlcohol)]

/-- **C98** (names).  Every name, in any case, selects its own mixture at `percent` per cent;
water is pure whatever the percentage; any other text is refused. -/
theorem fluid_names (lib : Kind → K → Option (Mixture K)) (s : List Char) (percent T : K) :
    (∀ p ∈ names, upper s = p.1 →
      create lib s percent T
        = (lib p.2 (if p.2 = .water then 0 else percent / 100)).map fun m => ofMixture m T) ∧
    ((∀ p ∈ names, upper s ≠ p.1) → create lib s percent T = none) := by
  constructor
  · intro p hp h
    simp only [names, List.mem_cons, List.not_mem_nil, or_false] at hp
    rcases hp with rfl | rfl | rfl | rfl | rfl | rfl | rfl | rfl | rfl <;>
      (simp only at h; unfold create mixture; rw [h]; rfl)
  · intro h
    simp only [names, List.forall_mem_cons] at h
    obtain ⟨h1, h2, h3, h4, h5, h6, h7, h8, h9, -⟩ := h
    simp [create, mixture, h1, h2, h3, h4, h5, h6, h7, h8, h9]

/-- Specification: the names of the documentation and the long names, in capital letters. -/
def documented : List (String × Kind) :=
  [("WATER", .water), ("MPG", .propyleneGlycol), ("MEG", .ethyleneGlycol), ("MMA", .methylAlcohol),
   ("MEA", .ethylAlcohol), ("PROPYLENEGLYCOL", .propyleneGlycol),
   ("ETHYLENEGLYCOL", .ethyleneGlycol), ("METHYLALCOHOL", .methylAlcohol),
   ("ETHYLALCOHOL", .ethylAlcohol)]

theorem names_documented : names = documented.map fun p => (p.1.toList, p.2) := by decide

theorem documented_capitals : ∀ p ∈ documented, Util.Capitals p.1.toList := by
  unfold Util.Capitals
  decide

/-- **C98** (spelling).  A documented name, each letter of which is a capital or a small one,
selects its own mixture; any other text is refused. -/
theorem fluid_spelled (lib : Kind → K → Option (Mixture K)) (s : List Char) (percent T : K) :
    (∀ p ∈ documented, Util.Spells s p.1.toList →
      create lib s percent T
        = (lib p.2 (if p.2 = .water then 0 else percent / 100)).map fun m => ofMixture m T) ∧
    ((∀ p ∈ documented, ¬ Util.Spells s p.1.toList) → create lib s percent T = none) := by
  obtain ⟨h1, h2⟩ := fluid_names lib s percent T
  refine ⟨fun p hp h => ?_, fun h => h2 fun p hp he => ?_⟩
  · refine h1 (p.1.toList, p.2) ?_ ((Util.spells_iff (documented_capitals p hp)).mpr h)
    rw [names_documented]
    exact List.mem_map_of_mem hp
  · rw [names_documented] at hp
    obtain ⟨q, hq, rfl⟩ := List.mem_map.mp hp
    exact h q hq ((Util.spells_iff (documented_capitals q hq)).mp he)

/-- `Fluid('mPg', 20.)` is a mixture with propylene glycol. -/
example (lib : Kind → K → Option (Mixture K)) (T : K) :
    create lib ['m', 'P', 'g'] 20 T = (lib .propyleneGlycol (20 / 100)).map fun m => ofMixture m T :=
  (fluid_spelled lib _ 20 T).1 ("MPG", .propyleneGlycol) (by decide) (by
    unfold Util.Spells
    decide)

/-- **C98** (case).  The case of the name does not matter. -/
theorem fluid_case (lib : Kind → K → Option (Mixture K)) (s s' : List Char) (percent T : K)
    (h : upper s = upper s') : create lib s percent T = create lib s' percent T := by
  unfold create mixture
  rw [h]

/-- **C98** (properties).  A new fluid has the properties of its mixture at its temperature, its
kinematic viscosity is the dynamic viscosity over the density, its volumetric heat capacity the
product of density and specific heat, and every method returns the attribute. -/
theorem fluid_properties (lib : Kind → K → Option (Mixture K)) (s : List Char) (percent T : K)
    (f : Fluid K) (h : create lib s percent T = some f) (hr : f.rho ≠ 0) :
    f.T_C = T ∧ f.rho = f.fluid.density T ∧ f.mu = f.fluid.viscosity T ∧
    f.cp = f.fluid.specificHeat T ∧ f.k = f.fluid.conductivity T ∧ f.Pr = f.fluid.prandtl T ∧
    f.nu * f.rho = f.mu ∧ f.rhoCp = f.rho * f.cp ∧
    f.densityM = f.rho ∧ f.dynamicViscosity = f.mu ∧ f.kinematicViscosity = f.nu ∧
    f.specificHeatCapacity = f.cp ∧ f.volumetricHeatCapacity = f.rhoCp ∧
    f.thermalConductivity = f.k ∧ f.prandtlNumber = f.Pr := by
  unfold create at h
  obtain ⟨m, -, rfl⟩ := Option.map_eq_some_iff.mp h
  refine ⟨rfl, rfl, rfl, rfl, rfl, rfl, ?_, rfl, rfl, rfl, rfl, rfl, rfl, rfl, rfl⟩
  exact div_mul_cancel₀ _ hr

/-- **C98** (other temperature), the part that holds: after a change of the temperature, the
methods for density, dynamic viscosity, specific heat, conductivity and Prandtl number return
the values of a fluid made at the new temperature.  Missing: the kinematic viscosity and the
volumetric heat capacity, see `fluid_stale`. -/
theorem fluid_temperature_partial (m : Mixture K) (T T' : K) :
    let f := (ofMixture m T).setT T'
    let f' := ofMixture m T'
    f.densityM = f'.rho ∧ f.dynamicViscosity = f'.mu ∧ f.specificHeatCapacity = f'.cp ∧
    f.thermalConductivity = f'.k ∧ f.prandtlNumber = f'.Pr :=
  ⟨rfl, rfl, rfl, rfl, rfl⟩

/-- The mixture of the examples: the density decreases with the temperature. -/
def exMixture : Mixture ℚ :=
  ⟨.propyleneGlycol, 1 / 5, fun T => 1000 - T, fun _ => 1 / 500, fun _ => 4000, fun _ => 1 / 2,
    fun _ => 16⟩

/-- **C98** fails for the two other methods: after a change of the temperature they return the
values at the old temperature. -/
theorem fluid_stale :
    let f := (ofMixture exMixture 20).setT 60
    f.kinematicViscosity ≠ (ofMixture exMixture 60).nu ∧
    f.volumetricHeatCapacity ≠ (ofMixture exMixture 60).rhoCp ∧
    f.kinematicViscosity * f.densityM ≠ f.dynamicViscosity := by
  refine ⟨?_, ?_, ?_⟩ <;>
    norm_num [ofMixture, exMixture, Fluid.setT, Fluid.kinematicViscosity,
      Fluid.volumetricHeatCapacity, Fluid.densityM, Fluid.dynamicViscosity]

omit [Field K] in
/-- A loop over items that contain a value that cannot be formatted raises. -/
theorem appendLoop_raises (items : List (String × Value K)) (d : Dict K) (key : String)
    (v : Value K) (hv : format v = none) (h : (key, v) ∈ items) : (appendLoop d items).2 = true := by
  induction items generalizing d with
  | nil => simp at h
  | cons p rest ih =>
    obtain ⟨key', v'⟩ := p
    unfold appendLoop
    split
    · rfl
    · rename_i d' hd'
      rcases List.mem_cons.mp h with h | h
      · obtain ⟨rfl, rfl⟩ := Prod.mk.inj h
        rw [hv] at hd'
        simp at hd'
      · exact ih d' h

omit [Field K] in
/-- **C98** (table) fails: `append_to_dict` raises for every fluid and every dictionary, because
it formats the mixture object and the name as numbers. -/
theorem append_to_dict_raises (f : Fluid K) (d : Dict K) : (f.appendToDict d).2 = true :=
  appendLoop_raises _ _ "fluid" .obj rfl (by simp [Fluid.items])

omit [Field K] in
/-- ... and it leaves an empty dictionary with ten keys, of which only three received a value. -/
theorem append_to_dict_left (f : Fluid K) :
    (f.appendToDict []).1 = [("Pr", [f.Pr]), ("T_C", [f.T_C]), ("cp", [f.cp]), ("fluid", []),
      ("k", []), ("mu", []), ("name", []), ("nu", []), ("rho", []), ("rhoCp", [])] := by
  simp [Fluid.appendToDict, Fluid.items, appendLoop, format, Dict.append]

omit [Field K] in
/-- ... and a dictionary with these keys keeps all its values; three lists are one longer than the
other lists. -/
theorem append_to_dict_again (f : Fluid K) (a b c d e g h i j k : List K) :
    (f.appendToDict [("Pr", a), ("T_C", b), ("cp", c), ("fluid", d), ("k", e), ("mu", g),
      ("name", h), ("nu", i), ("rho", j), ("rhoCp", k)]).1 =
      [("Pr", a ++ [f.Pr]), ("T_C", b ++ [f.T_C]), ("cp", c ++ [f.cp]), ("fluid", d), ("k", e),
       ("mu", g), ("name", h), ("nu", i), ("rho", j), ("rhoCp", k)] := by
  simp [Fluid.appendToDict, Fluid.items, appendLoop, format, Dict.append]

/-- Example: a library that knows all mixtures; 'mpg' in lower case, 20 %. -/
example : create (fun k x => some { exMixture with kind := k, fraction := x }) ['m', 'p', 'G']
    (20 : ℚ) 10 = some (ofMixture exMixture 10) := by
  rw [(fluid_names _ _ _ _).1 (MPG, .propyleneGlycol) (by simp [names]) (by decide)]
  simp [exMixture]; norm_num

example : (ofMixture exMixture 20).rho ≠ 0 := by norm_num [ofMixture, exMixture]

end Verif.Media
