import Verif.Gf.TempModel
import Verif.Net.FlowModel
import Mathlib.Algebra.BigOperators.Fin

/-!
# Model of a g-function with a mixed inlet temperature from the boreholes, pipes and connections of a network

Models `pygfunction/solvers/_base_solver.py`: `solve` for `MIFT` with one flow rate (l. 335-453), with the coefficients it requests from the network (l. 354-359, 417-418):
`coefficients_borehole_heat_extraction_rate` (`networks.py` l. 862-939) with the segments of the solver, and `network_thermal_resistance` (`networks.py` l. 1659-1702)
with one segment per borehole.

Simplifications: as in `TempModel` and `Net.FlowModel`.  A borehole and its pipes are a function of the ratios of the segments; the coefficients are those of the methods of
`pipes.py` for these ratios.  The cache of the network is not modelled here (see `Net.CacheModel`).
-/

noncomputable section

namespace Verif.Gf

open Bore Sol Net

/-- The numbers of segments of the boreholes (`nBoreSegments`, which are the lengths of the ratios). -/
def segCount (bs : List Borehole) (rs : List (List ℝ)) (i : Fin bs.length) : ℕ := (rs.getD i []).length

/-- Place of a segment in the concatenated vectors of the network (`block_diag`, `np.vstack` of l. 919-939 of `networks.py`): borehole after borehole. -/
def segPlace {n N : ℕ} {ns : Fin n → ℕ} (h : ∑ i, ns i = N) : SegIdx ns ≃ Fin N := finSigmaFinEquiv.trans (finCongr h)

/-- The coefficients of the network in the order of the heat sources of the solver. -/
def netFlow {n N : ℕ} {ns : Fin n → ℕ} (h : ∑ i, ns i = N) (k : Coef (SegIdx ns) ns) (mcp R ks : ℝ) (Hb : Fin N → ℝ) : Flow N where
  aIn a := k.aIn ((segPlace h).symm a)
  aB a b := k.aB ((segPlace h).symm a) ((segPlace h).symm b)
  mcp := mcp
  R := R
  ks := ks
  Hb := Hb

/-- `network_thermal_resistance` (l. 1686-1702 of `networks.py`): the network with one segment per borehole; `Htot` is `network.H_tot`. -/
def fieldResistance {n : ℕ} (t : Topology) (p : Fin n → Net.Pipe 1) (f : Formatted) (Htot : ℝ) : Option ℝ :=
  match netInlet t p f, netOutlet t p f with
  | some ki, some ko => some (netResistance Htot (netMixed (mixing (flowOutlets t f) f.mIn) ko) (netHeat (fluidHeat t p f ki)))
  | _, _ => none

/-- Coefficients and resistance for the flow rates `m` (l. 354-359, 414-418 of `_base_solver.py`).  An exception of the network, or a number of coefficients that is not the
number of heat sources, is `none`. -/
def networkFlow (bs : List Borehole) (ns : List ℕ) (rs : List (List ℝ)) (t : Topology) (pipe : Fin bs.length → (r : List ℝ) → Net.Pipe r.length) (ks : ℝ) (m : List ℝ)
    (cp : ℝ) : Option (Flow (segmentList bs ns rs).length) :=
  match format t m [cp] with
  | .error _ => none
  | .ok f =>
    match netInlet t (fun i => pipe i (rs.getD i [])) f, fieldResistance t (fun i => pipe i [1]) f (bs.map Borehole.H).sum with
    | some ki, some R =>
      if h : ∑ i : Fin bs.length, (rs.getD i []).length = (segmentList bs ns rs).length then
        some (netFlow h (boreHeat t (fun i => pipe i (rs.getD i [])) f ki) ((m.map fun a => |a| * cp).sum) R ks (segmentLengths bs ns rs))
      else none
    | _, _ => none

/-- g-function, heat extraction rates and wall temperatures of the network with the connections `conn`. -/
def mixedNetwork (K : ℝ → Bool → Borehole → Borehole → ℝ) (bs : List Borehole) (ns : List ℕ) (rs : List (List ℝ)) (conn : Option (List ℤ))
    (pipe : Fin bs.length → (r : List ℝ) → Net.Pipe r.length) (ks : ℝ) (m : List ℝ) (cp : ℝ) (time : List ℝ) (thr : ℝ) :
    Option (List ℝ × List (Fin (segmentList bs ns rs).length → ℝ) × (Fin (segmentList bs ns rs).length → List ℝ)) :=
  match construct bs.length conn with
  | .error _ => none
  | .ok t =>
    match networkFlow bs ns rs t pipe ks m cp with
    | none => none
    | some f => mixedDetailed K bs ns rs f time thr

end Verif.Gf
