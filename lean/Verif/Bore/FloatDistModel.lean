import Verif.Bore.DistModel
import Verif.Num.FloatModel

/-!
# Model of the grouping of distances with floating-point numbers

Sources: as `Verif.Bore.DistModel` (`pygfunction/boreholes.py` l. 522-547, `pygfunction/solvers/similarities.py` l. 966-999), where all numbers are exact.  Here the threshold
`(1 + disTol) * all_dis[j0]` is computed with a rounding `fl` after the sum and after the product.  Comparisons and the selection of slices are exact, as in the machine.

Simplification: the mean of a group is any function `mean` of its members.
-/

noncomputable section

namespace Verif.Bore

/-- The computed `(1 + disTol) * a` (boreholes.py l. 535, similarities.py l. 987). -/
def threshold (fl : ℝ → ℝ) (tol a : ℝ) : ℝ := fl (fl (1 + tol) * a)

/-- Loop body of `unique_distance` (l. 535-545). -/
def uBodyFl (fl : ℝ → ℝ) (mean : List ℝ → ℝ) (tol : ℝ) (d : List ℝ) (s : UVars ℝ) : UVars ℝ :=
  let j1 := argmaxGe d (threshold fl tol (d.getD s.j0 0))
  if j1 > s.j0 then
    ⟨j1, j1, s.dis ++ [mean ((d.drop s.j0).take (j1 - s.j0))], s.wDis ++ [j1 - s.j0]⟩
  else
    ⟨j1, j1, s.dis ++ [mean (d.drop s.j0)], s.wDis ++ [d.length - s.j0]⟩

/-- `unique_distance` (l. 523-547). -/
def UniqueDistanceFl (fl : ℝ → ℝ) (mean : List ℝ → ℝ) (tol : ℝ) (all : List ℝ) (dis : List ℝ) (wDis : List ℕ) : Prop :=
  let d := all.insertionSort (· ≤ ·)
  ∃ s, Loop (uCond d) (uBodyFl fl mean tol d) ⟨0, 1, [], []⟩ s ∧ s.dis = dis ∧ s.wDis = wDis

/-- Loop body of `_find_distances` (l. 986-999). -/
def sBodyFl (fl : ℝ → ℝ) (mean : List ℝ → ℝ) (tol : ℝ) (d : List ℝ) (isort : List ℕ) (s : SVars ℝ) : SVars ℝ :=
  let j1 := argmaxGe d (threshold fl tol (d.getD s.j0 0))
  if j1 > s.j0 then
    ⟨j1, j1, s.nDis + 1, s.distances ++ [mean ((d.drop s.j0).take (j1 - s.j0))],
      assign s.indices ((isort.drop s.j0).take (j1 - s.j0)) s.nDis⟩
  else
    ⟨j1, j1, s.nDis + 1, s.distances ++ [mean (d.drop s.j0)],
      assign s.indices (isort.drop s.j0) s.nDis⟩

/-- `_find_distances` for one group of pairs (l. 966-999). -/
def FindDistancesFl (fl : ℝ → ℝ) (mean : List ℝ → ℝ) (tol : ℝ) (all : List ℝ) (isort : List ℕ) (init : ℕ → ℕ) (distances : List ℝ) (indices : ℕ → ℕ) : Prop :=
  let d := isort.map fun p : ℕ => all.getD p 0
  ∃ s, Loop (sCond d) (sBodyFl fl mean tol d isort) ⟨0, 1, 0, [], init⟩ s ∧
    s.distances = distances ∧ s.indices = indices

end Verif.Bore
