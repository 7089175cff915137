import Verif.Bore.DupModel
import Verif.Num.FloatModel

/-!
# Model of `find_duplicates` and `remove_duplicates` with floating-point numbers

Source: `/repo/pygfunction/boreholes.py`, l. 617-694, as `Verif.Bore.DupModel`, where all numbers are exact.  Here every operation on floats is followed by a rounding `fl`.  Operations on
integers (`-8 * duplicate_index + 4 * n * (n - 1) - 7`) are exact; their results are converted to floats.

Simplification: the distance of `pdist` is the root of the sum of the squares of the differences, with every operation rounded (scipy's loop in C, without fused multiply-add).
-/

noncomputable section

namespace Verif.Bore

/-- One distance of `pdist(coordinates, 'euclidean')` (l. 646). -/
def planDistFl (fl : ℝ → ℝ) (a b : Borehole) : ℝ :=
  fl (Real.sqrt (fl (fl (fl (a.x - b.x) * fl (a.x - b.x)) + fl (fl (a.y - b.y) * fl (a.y - b.y)))))

/-- The condensed vector of distances (l. 646). -/
def pdistFl (fl : ℝ → ℝ) : List Borehole → List ℝ
  | [] => []
  | b :: l => l.map (planDistFl fl b) ++ pdistFl fl l

/-- `i` from the condensed index `k` (l. 649-650), a float. -/
def recoverIFl (fl : ℝ → ℝ) (n k : ℕ) : ℝ :=
  fl ((n : ℝ) - 2 - (⌊fl (fl (fl (Real.sqrt (fl ((-8 * (k : ℤ) + 4 * (n : ℤ) * ((n : ℤ) - 1) - 7 : ℤ) : ℝ))) / 2) - 1 / 2)⌋ : ℝ))

/-- `j` from the condensed index `k` and `i` (l. 651), a float. -/
def recoverJFl (fl : ℝ → ℝ) (n k : ℕ) (i : ℝ) : ℝ :=
  fl (fl (fl (fl ((k : ℝ) + i) + 1) - fl ((n : ℝ) * ((n : ℝ) - 1) / 2)) + fl (fl (fl ((n : ℝ) - i) * fl (fl ((n : ℝ) - i) - 1)) / 2))

/-- `(int(ii), int(jj))` (l. 652). -/
def recoverFl (fl : ℝ → ℝ) (n k : ℕ) : ℤ × ℤ := (pyInt (recoverIFl fl n k), pyInt (recoverJFl fl n k (recoverIFl fl n k)))

/-- `find_duplicates` (l. 617-657). -/
def findDuplicatesFl (fl : ℝ → ℝ) (field : List Borehole) : Option (List (ℤ × ℤ)) :=
  (maxRadius field).map fun r => (closeIndices (pdistFl fl field) r).map (recoverFl fl field.length)

/-- `remove_duplicates` (l. 660-694). -/
def removeDuplicatesFl (fl : ℝ → ℝ) (field : List Borehole) : Option (List Borehole) :=
  (findDuplicatesFl fl field).map fun ps =>
    (field.zipIdx.filter fun p => decide ((p.2 : ℤ) ∉ ps.map (·.2))).map (·.1)

end Verif.Bore
