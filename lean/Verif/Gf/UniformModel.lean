import Verif.Sol.DetModel
import Verif.Sol.SolveModel

/-!
# Model of a g-function from start to end: uniform heat extraction rate, `detailed` solver

Models `pygfunction/solvers/_base_solver.py`: `solve` for `UHTR` (l. 224-277) with the response factors of `pygfunction/solvers/detailed.py`: `thermal_response_factors` (l. 198-236).

Simplifications: exact arithmetic; an exception is `none`.  `K t` is the finite line source solution at the time `t`: the evaluation for all times at once gives the same
values (`FLS.times_vector`).
-/

noncomputable section

namespace Verif.Gf

open Bore Sol

open Classical in
/-- The g-function at the times `time`; `thr` is the threshold for linearization. -/
def uniformDetailed (K : ℝ → Bool → Borehole → Borehole → ℝ) (bs : List Borehole) (ns : List ℕ) (rs : List (List ℝ)) (time : List ℝ) (thr : ℝ) : Option (List ℝ) :=
  let segs := segmentList bs ns rs
  if ∀ t ∈ timeLong time thr, (detailed (K t) bs ns rs).isSome then
    some (uhtr (fun i : Fin segs.length => segs[i].H) (fun tl i j => tl.map fun t => ((detailed (K t) bs ns rs).getD fun _ _ => 0) i j) time thr)
  else none

end Verif.Gf
