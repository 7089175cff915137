import Verif.Sol.SimModel

/-!
# Comparison of pairs of inclined boreholes for one kind of source

`solvers/similarities.py`, `_compare_real_pairs_inclined` (l. 672-718) and `_compare_image_pairs_inclined` (l. 720-766), which `_map_axial_segment_pairs_inclined` (l. 1157-1165) calls when only real or
only mirror sources are considered.  Both return a Boolean, here a proposition; `theta_12` is `pairTheta`, the products of `sin` and `cos` are `sinCos1` and `sinCos2` (`SimModel.lean`).  The code compares the
products with `>` (l. 712-713, 760-761), where `_compare_realandimage_pairs_inclined` has `<` (l. 815-816).
-/

noncomputable section

namespace Verif.Sol

open Bore

/-- Tilts (l. 703-705, 751-753). -/
def condBeta (tol : ℝ) (p q : Borehole × Borehole) : Prop := relDiff |p.1.tilt| |q.1.tilt| < tol ∧ relDiff |p.2.tilt| |q.2.tilt| < tol

/-- `cond_theta` of these two methods (l. 707-713, 755-761). -/
def condThetaKind (tol : ℝ) (p q : Borehole × Borehole) : Prop := relDiff (sinCos1 p) (sinCos1 q) > tol ∧ relDiff (sinCos2 p) (sinCos2 q) > tol

/-- `_compare_real_pairs_inclined` (l. 690-718). -/
def cmpRealInclined (tol disTol : ℝ) (p q : Borehole × Borehole) : Prop :=
  condH tol p q ∧ relDiff (p.1.D - p.2.D) (q.1.D - q.2.D) < tol ∧ relDiff (pairDis p) (pairDis q) < disTol ∧ condBeta tol p q ∧ condThetaKind tol p q

/-- `_compare_image_pairs_inclined` (l. 738-766). -/
def cmpImageInclined (tol disTol : ℝ) (p q : Borehole × Borehole) : Prop :=
  condH tol p q ∧ relDiff (p.1.D + p.2.D) (q.1.D + q.2.D) < tol ∧ relDiff (pairDis p) (pairDis q) < disTol ∧ condBeta tol p q ∧ condThetaKind tol p q

end Verif.Sol
