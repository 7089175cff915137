import Verif.Gf.NetworkModel
import Verif.Gf.SolversModel
import Verif.Net.EquivModel
import Verif.Sol.EqUniform

/-!
# Model of a g-function with a mixed inlet temperature and the `equivalent` solver, from the boreholes and pipes

Models `pygfunction/solvers/equivalent.py`, `initialize` (l. 406-413): the equivalent network is built from the equivalent boreholes, each with the pipe of the first borehole of its
group; and `solve` of `_base_solver.py` for `MIFT` with one total flow rate (l. 335-453), with the coefficients it requests from the equivalent network (l. 354-359, 414-419).

Simplifications: as in `NetworkModel` and `Net.EquivModel`; the verifications of `_check_inputs` (l. 826-846) are hypotheses of the theorems.
-/

noncomputable section

namespace Verif.Gf

open Bore Sol Net

/-- `network_thermal_resistance` (l. 1686-1702 of `networks.py`) of an equivalent network; `w` are the numbers of boreholes of the groups. -/
def eqResistance {n : ℕ} (t : Topology) (p : Fin n → Net.Pipe 1) (f : Formatted) (w : List ℕ) (Htot : ℝ) : Option ℝ :=
  match netInlet t p f, netOutlet t p f with
  | some ki, some ko => some (netResistance Htot (netMixed (eqMixing (flowOutlets t f) f.mIn w) ko) (eqHeat w (fluidHeat t p f ki)))
  | _, _ => none

/-- The numbers of boreholes of the groups (`wBoreholes`, l. 399). -/
def groupSizes (S : EqSol) : List ℕ := (List.range S.n).map fun i => (S.eb i).pos.length

/-- `Hb_individual` (l. 244 of `_base_solver.py`): lengths of the segments of one borehole of each group. -/
def lengthsOne (S : EqSol) : List ℝ := (List.range S.n).flatMap fun i => (List.range S.ns).map fun a => (S.sim.seg i a).H

/-- Coefficients and resistance for the total flow rate `m`.  An exception of the network, or a number of coefficients that is not the number of heat sources, is `none`. -/
def equivalentFlow (S : EqSol) (pipe : Fin S.n → (r : List ℝ) → Net.Pipe r.length) (ks m cp : ℝ) : Option (Flow (S.ns * S.n)) :=
  match eqConstruct S.n with
  | .error _ => none
  | .ok t =>
    let f := eqFormat t (groupSizes S) m cp
    match netInlet t (fun i => pipe i S.rs) f, eqResistance t (fun i => pipe i [1]) f (groupSizes S) (eqHtot (groupSizes S) ((List.range S.n).map fun i => (S.eb i).H)) with
    | some ki, some R =>
      if h : ∑ _i : Fin S.n, S.rs.length = S.ns * S.n then
        some (netFlow h (boreHeat t (fun i => pipe i S.rs) f ki) (|m| * cp) R ks fun i => (lengthsOne S).getD i 0)
      else none
    | _, _ => none

/-- g-function, heat extraction rates and wall temperatures with the `equivalent` solver for boreholes in parallel with the pipes `pipe`; `es` are the equivalent boreholes and `dis` the
distances of the field. -/
def mixedEquivalentNetwork (KE : ℝ → FLS.Pair → List (ℝ × ℝ) → ℕ → ℝ) (K : ℝ → FLS.Pair → ℝ) (E : EqIn) (es : List EqBore) (dis : List ℝ) (n : ℕ) (r : List ℝ)
    (pipe : ℕ → (r : List ℝ) → Net.Pipe r.length) (ks m cp : ℝ) (time : List ℝ) (thr : ℝ) : Option (List ℝ × List (Fin (n * es.length) → ℝ) × (Fin (n * es.length) → List ℝ)) :=
  match equivalentFlow (E.solver es dis n r) (fun i => pipe (E.clusters.1.findIdx fun c : ℕ => c = (i : ℕ))) ks m cp with
  | none => none
  | some f => mixedEquivalent KE K (E.solver es dis n r) f time thr

end Verif.Gf
