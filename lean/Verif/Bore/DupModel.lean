import Verif.Bore.Model

/-!
# Model of `find_duplicates` and `remove_duplicates`

Source: `/repo/pygfunction/boreholes.py`, l. 617-694.  Floats are real numbers; printing
(`disp`) is not modelled.
-/

noncomputable section

namespace Verif.Bore

/-- Horizontal distance between two boreholes (the metric used by `pdist`, l. 646). -/
def planDist (a b : Borehole) : ℝ := Real.sqrt ((a.x - b.x) ^ 2 + (a.y - b.y) ^ 2)

/-- `scipy.spatial.distance.pdist(coordinates, 'euclidean')` (l. 646): the condensed distance
vector, all pairs `i < j` in lexicographic order. -/
def pdist : List Borehole → List ℝ
  | [] => []
  | b :: l => l.map (planDist b) ++ pdist l

/-- `np.max([b.r_b for b in boreField])` (l. 642); raises `ValueError` on an empty list. -/
def maxRadius : List Borehole → Option ℝ
  | [] => none
  | b :: l => some (l.foldl (fun m c => max m c.rb) b.rb)

/-- Python's `int(x)` for a float: truncation towards zero. -/
def pyInt (x : ℝ) : ℤ := if 0 ≤ x then ⌊x⌋ else ⌈x⌉

/-- `i` from the condensed index `k` (l. 649-650). -/
def recoverI (n k : ℕ) : ℤ :=
  (n : ℤ) - 2 - ⌊Real.sqrt (-8 * (k : ℝ) + 4 * (n : ℝ) * ((n : ℝ) - 1) - 7) / 2 - 1 / 2⌋

/-- `j` from the condensed index `k` and `i` (l. 651). -/
def recoverJ (n k : ℕ) (i : ℤ) : ℝ :=
  (k : ℝ) + i + 1 - (n : ℝ) * ((n : ℝ) - 1) / 2 + ((n : ℝ) - i) * (((n : ℝ) - i) - 1) / 2

/-- `(int(ii), int(jj))` (l. 652). -/
def recover (n k : ℕ) : ℤ × ℤ := (pyInt (recoverI n k), pyInt (recoverJ n k (recoverI n k)))

/-- `np.argwhere(distances < r_b)` (l. 648). -/
def closeIndices (dist : List ℝ) (r : ℝ) : List ℕ :=
  (List.range dist.length).filter fun k => decide (dist.getD k 0 < r)

/-- `find_duplicates` (l. 617-657). -/
def findDuplicates (field : List Borehole) : Option (List (ℤ × ℤ)) :=
  (maxRadius field).map fun r => (closeIndices (pdist field) r).map (recover field.length)

/-- `remove_duplicates` (l. 660-694). -/
def removeDuplicates (field : List Borehole) : Option (List Borehole) :=
  (findDuplicates field).map fun ps =>
    let duplicateBores := ps.map (·.2)
    (field.zipIdx.filter fun p => decide ((p.2 : ℤ) ∉ duplicateBores)).map (·.1)

end Verif.Bore
