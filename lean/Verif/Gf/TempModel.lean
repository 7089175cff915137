import Verif.Gf.UniformModel

/-!
# Model of a g-function from start to end: uniform temperature or mixed inlet temperature, `detailed` solver

Models `pygfunction/solvers/_base_solver.py`: `solve` for `UBWT` (l. 224-250, 279-333) and `MIFT` with one flow rate (l. 335-453), with the response factors of
`pygfunction/solvers/detailed.py`: `thermal_response_factors` (l. 198-236).

Simplifications: as in `UniformModel`.
-/

noncomputable section

namespace Verif.Gf

open Bore Sol

/-- The response factors at the times `tl`. -/
def responses (K : ℝ → Bool → Borehole → Borehole → ℝ) (bs : List Borehole) (ns : List ℕ) (rs : List (List ℝ)) (tl : List ℝ)
    (i j : Fin (segmentList bs ns rs).length) : List ℝ :=
  tl.map fun t => ((detailed (K t) bs ns rs).getD fun _ _ => 0) i j

/-- The lengths of the segments. -/
def segmentLengths (bs : List Borehole) (ns : List ℕ) (rs : List (List ℝ)) (i : Fin (segmentList bs ns rs).length) : ℝ := (segmentList bs ns rs)[i].H

open Classical in
/-- g-function and heat extraction rates with a uniform temperature; `thr` is the threshold for linearization. -/
def temperatureDetailed (K : ℝ → Bool → Borehole → Borehole → ℝ) (bs : List Borehole) (ns : List ℕ) (rs : List (List ℝ)) (time : List ℝ) (thr : ℝ) :
    Option (List ℝ × List (Fin (segmentList bs ns rs).length → ℝ)) :=
  if ∀ t ∈ timeLong time thr, (detailed (K t) bs ns rs).isSome then
    ubwt (segmentLengths bs ns rs) (responses K bs ns rs) time thr
  else none

open Classical in
/-- g-function, heat extraction rates and wall temperatures with a mixed inlet temperature. -/
def mixedDetailed (K : ℝ → Bool → Borehole → Borehole → ℝ) (bs : List Borehole) (ns : List ℕ) (rs : List (List ℝ)) (f : Flow (segmentList bs ns rs).length) (time : List ℝ) (thr : ℝ) :
    Option (List ℝ × List (Fin (segmentList bs ns rs).length → ℝ) × (Fin (segmentList bs ns rs).length → List ℝ)) :=
  if ∀ t ∈ timeLong time thr, (detailed (K t) bs ns rs).isSome then
    mift (segmentLengths bs ns rs) f (responses K bs ns rs) time thr
  else none

end Verif.Gf
