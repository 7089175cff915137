import Verif.Gf.NetworkModel

/-!
# Model of the g-functions for several mass flow rates

Models `pygfunction/solvers/_base_solver.py`: `solve` for `MIFT` with an array of flow rates (`nMassFlow` rows; l. 335-453), from the boreholes, pipes and connections of a network:
the runs for each flow rate (l. 351-422), the g-functions of one flow rate from the wall temperatures of the run of another (l. 424-443), and the values under the threshold (l. 445-449).

Simplifications: as in `NetworkModel`.  Every flow rate is a list, of one number (a row of `m_flow_network`) or one number per circuit (a row of `m_flow_borehole`).  A division by zero,
which numpy only warns about, has a value of the real numbers (see the theorems, where it does not occur).
-/

noncomputable section

namespace Verif.Gf

open Bore Sol Net

/-- The network at one flow rate: coefficients of the boreholes, and of the heat extraction rate of the network (l. 427-431). -/
structure Op (n : ℕ) where
  flow : Flow n
  netIn : ℝ
  netB : Fin n → ℝ

variable {n k : ℕ}

/-- Values at `time_long` of the g-function for the flow rate `i` with the wall temperatures of the run `l` for the flow rate `j` (l. 422, 424-443). -/
def crossValues (H : Fin n → ℝ) (ops : Fin k → Op n) (l : Fin k → List (MiftState n)) (i j : Fin k) : List ℝ :=
  if i = j then (l j).map MiftState.g else (l j).map fun x => crossG (∑ a, H a) (ops i).flow (ops i).netIn (ops i).netB x.T

/-- `solve` for `MIFT` with the flow rates `ops`: `gFunc[i, j]` and `T_b[j]`. -/
def miftMany (H : Fin n → ℝ) (ops : Fin k → Op n) (resp : List ℝ → Fin n → Fin n → List ℝ) (time : List ℝ) (thr : ℝ) :
    Option ((Fin k → Fin k → List ℝ) × (Fin k → Fin n → List ℝ)) :=
  match allSome fun j => miftLoop H (ops j).flow (timeLong time thr) (resp (timeLong time thr)) (timeLong time thr).length with
  | none => none
  | some l =>
    if pLong time thr > 0 then
      match linearizeMany k (pLong time thr) (fun i j => (crossValues H ops l i j).headD 0) (fun p => time.getD p 0) thr with
      | none => none
      | some a => some (fun i j => List.ofFn (a i j) ++ (crossValues H ops l i j).tail, fun j b => linearize time thr ((l j).map fun x => x.T b))
    else some (crossValues H ops l, fun j b => (l j).map fun x => x.T b)

/-- The network at the flow rates `m` (l. 354-359, 427-431); `coefficients_network_heat_extraction_rate` is l. 1020-1084 of `networks.py`. -/
def networkOp (bs : List Borehole) (ns : List ℕ) (rs : List (List ℝ)) (t : Topology) (pipe : Fin bs.length → (r : List ℝ) → Net.Pipe r.length) (ks : ℝ) (m : List ℝ)
    (cp : ℝ) : Option (Op (segmentList bs ns rs).length) :=
  match networkFlow bs ns rs t pipe ks m cp with
  | none => none
  | some fl =>
    match format t m [cp] with
    | .error _ => none
    | .ok f =>
      match netInlet t (fun i => pipe i (rs.getD i [])) f with
      | none => none
      | some ki =>
        if h : ∑ i : Fin bs.length, (rs.getD i []).length = (segmentList bs ns rs).length then
          some ⟨fl, (netHeat (fluidHeat t (fun i => pipe i (rs.getD i [])) f ki)).aIn (), fun b => (netHeat (fluidHeat t (fun i => pipe i (rs.getD i [])) f ki)).aB () ((segPlace h).symm b)⟩
        else none

open Classical in
/-- g-functions `gFunc[i, j]` and wall temperatures `T_b[j]` of the network for the flow rates `ms`. -/
def mixedMany (K : ℝ → Bool → Borehole → Borehole → ℝ) (bs : List Borehole) (ns : List ℕ) (rs : List (List ℝ)) (conn : Option (List ℤ))
    (pipe : Fin bs.length → (r : List ℝ) → Net.Pipe r.length) (ks : ℝ) (ms : Fin k → List ℝ) (cp : ℝ) (time : List ℝ) (thr : ℝ) :
    Option ((Fin k → Fin k → List ℝ) × (Fin k → Fin (segmentList bs ns rs).length → List ℝ)) :=
  match construct bs.length conn with
  | .error _ => none
  | .ok t =>
    match allSome fun j => networkOp bs ns rs t pipe ks (ms j) cp with
    | none => none
    | some ops =>
      if ∀ t ∈ timeLong time thr, (detailed (K t) bs ns rs).isSome then miftMany (segmentLengths bs ns rs) ops (responses K bs ns rs) time thr else none

end Verif.Gf
