import Verif.Util.While
import Mathlib.Data.List.Sort

/-!
# Model of the grouping of distances within a tolerance

Sources: `/repo/pygfunction/boreholes.py`, `_EquivalentBorehole.unique_distance` (l. 522-547), and
`/repo/pygfunction/solvers/similarities.py`, `Similarities._find_distances` (l. 966-999).
Floats are elements of an ordered field; `while` loops use the big-step semantics
`Verif.Loop`.
-/

namespace Verif.Bore

variable {K : Type*} [Field K] [LinearOrder K]

/-- `np.argmax(d >= v)`: the index of the first `True`, or 0 when there is none. -/
def argmaxGe (d : List K) (v : K) : ℕ := (d.findIdx? fun x => decide (v ≤ x)).getD 0

/-- `np.mean` of a slice. -/
def npMean (l : List K) : K := l.sum / (l.length : K)

/-- Loop variables of `unique_distance`. -/
structure UVars (K : Type*) where
  j0 : ℕ
  j1 : ℕ
  dis : List K
  wDis : List ℕ

/-- `while j0 < nDis and j1 > 0` (l. 532). -/
def uCond (d : List K) (s : UVars K) : Prop := s.j0 < d.length ∧ 0 < s.j1

/-- Loop body of `unique_distance` (l. 535-545). -/
def uBody (tol : K) (d : List K) (s : UVars K) : UVars K :=
  let j1 := argmaxGe d ((1 + tol) * d.getD s.j0 0)
  if j1 > s.j0 then
    ⟨j1, j1, s.dis ++ [npMean ((d.drop s.j0).take (j1 - s.j0))], s.wDis ++ [j1 - s.j0]⟩
  else
    ⟨j1, j1, s.dis ++ [npMean (d.drop s.j0)], s.wDis ++ [d.length - s.j0]⟩

/-- `unique_distance` with the flattened distance matrix `all` (l. 523): the returned pair of
arrays is `(dis, wDis)`. -/
def UniqueDistance (tol : K) (all : List K) (dis : List K) (wDis : List ℕ) : Prop :=
  let d := all.insertionSort (· ≤ ·)
  ∃ s, Loop (uCond d) (uBody tol d) ⟨0, 1, [], []⟩ s ∧ s.dis = dis ∧ s.wDis = wDis

/-- Loop variables of the loop of `_find_distances`. -/
structure SVars (K : Type*) where
  j0 : ℕ
  j1 : ℕ
  nDis : ℕ
  distances : List K
  indices : ℕ → ℕ

/-- `indices[is] = v` for an array of positions `is`. -/
def assign (f : ℕ → ℕ) (is : List ℕ) (v : ℕ) : ℕ → ℕ := fun p => if p ∈ is then v else f p

/-- `while j0 < nPairs and j1 > 0` (l. 984). -/
def sCond (d : List K) (s : SVars K) : Prop := s.j0 < d.length ∧ 0 < s.j1

/-- Loop body of `_find_distances` (l. 986-999). -/
def sBody (tol : K) (d : List K) (isort : List ℕ) (s : SVars K) : SVars K :=
  let j1 := argmaxGe d ((1 + tol) * d.getD s.j0 0)
  if j1 > s.j0 then
    ⟨j1, j1, s.nDis + 1, s.distances ++ [npMean ((d.drop s.j0).take (j1 - s.j0))],
      assign s.indices ((isort.drop s.j0).take (j1 - s.j0)) s.nDis⟩
  else
    ⟨j1, j1, s.nDis + 1, s.distances ++ [npMean (d.drop s.j0)],
      assign s.indices (isort.drop s.j0) s.nDis⟩

/-- `_find_distances` for one group of pairs with distances `all`: `isort` is the result of
`argsort` (l. 972), `init` the uninitialised index array (l. 960). -/
def FindDistances (tol : K) (all : List K) (isort : List ℕ) (init : ℕ → ℕ)
    (distances : List K) (indices : ℕ → ℕ) : Prop :=
  let d := isort.map fun p : ℕ => all.getD p 0
  ∃ s, Loop (sCond d) (sBody tol d isort) ⟨0, 1, 0, [], init⟩ s ∧
    s.distances = distances ∧ s.indices = indices

end Verif.Bore
