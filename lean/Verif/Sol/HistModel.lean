import Verif.Tac
import Verif.Bore.Model

/-!
# Model of the load history of the g-function solvers

Models `pygfunction/solvers/_base_solver.py`: `load_history_reconstruction` (l. 532-573) and `temporal_superposition` (l. 500-530), with
`scipy.interpolate.interp1d(kind='linear')`.

Simplifications: exact arithmetic.  The rows of `Q_b` (one per heat source) are treated one at a time.  `interp1d` sorts its abscissae; they are used as given,
which is the same when the times increase.
-/

noncomputable section

namespace Verif.Sol

open Bore

/-- The straight line through two points. -/
def line (p q : ℝ × ℝ) (x : ℝ) : ℝ := (q.2 - p.2) / (q.1 - p.1) * (x - p.1) + p.2

/-- Search of the interval: the first whose upper end is not below `x`, at last the last one. -/
def interpGo (x : ℝ) : ℝ × ℝ → List (ℝ × ℝ) → ℝ
  | p, [] => p.2
  | p, [q] => line p q x
  | p, q :: r :: l => if x ≤ q.1 then line p q x else interpGo x q (r :: l)

/-- `interp1d(t, f, kind='linear')(x)`; a value outside of the range raises. -/
def interp (pts : List (ℝ × ℝ)) (x : ℝ) : Option ℝ :=
  match pts with
  | [] => none
  | p :: l => if p.1 ≤ x ∧ x ≤ (l.getLastD p).1 then some (interpGo x p l) else none

/-- `x[1:] - x[:-1]`, where `a` comes before the list. -/
def diffsFrom (a : ℝ) : List ℝ → List ℝ
  | [] => []
  | t :: l => (t - a) :: diffsFrom t l

/-- `np.hstack((time[0], time[1:]-time[:-1]))` (l. 555); also l. 524-526. -/
def diffs : List ℝ → List ℝ
  | [] => []
  | t :: l => t :: diffsFrom t l

/-- `load_history_reconstruction` for one row of `Q_b`; `none` when numpy or scipy raise (`time[0]` of an empty array, operands of different lengths, values out of
the range of interpolation). -/
def reconstruct (time Q : List ℝ) : Option (List ℝ) :=
  match time with
  | [] => none
  | t0 :: ts =>
    if Q.length ≠ (t0 :: ts).length then none else
    let dt := diffs (t0 :: ts)
    let t := 0 :: ((t0 :: ts) ++ [ts.getLastD t0 + t0])
    let dtR := dt.reverse
    let tR := 0 :: cumsumFrom 0 dtR
    let f := 0 :: cumsumFrom 0 (List.zipWith (· * ·) Q dt)
    let f' := f ++ [f.getLastD 0]
    let sf := interp (List.zip t f')
    match tR.tail.mapM sf, tR.dropLast.mapM sf with
    | some a, some b => some (List.zipWith (· / ·) (List.zipWith (· - ·) a b) dtR)
    | _, _ => none

/-- `temporal_superposition` (l. 519-530): `h i j` is the list of the response factors of the source `j` on `i`, `Q j` the reconstructed loads of `j`.  `none` when
there are fewer response factors than loads. -/
def superpose {n : ℕ} (h : Fin n → Fin n → List ℝ) (Q : Fin n → List ℝ) (i : Fin n) : Option ℝ :=
  if ∀ j, (Q j).length ≤ (h i j).length then
    some (∑ j, (List.zipWith (· * ·) ((h i j).take (Q j).length) (diffs (Q j)).reverse).sum)
  else none

end Verif.Sol
