import Verif.Sol.DetModel
import Verif.FLS.Model
import Verif.Bore.DistModel
import Mathlib.Analysis.SpecialFunctions.Complex.Arg

/-!
# Model of the `Similarities` solver

Models `pygfunction/solvers/similarities.py`: comparisons (l. 567-575, 595-612, 632-644, 665-670, 792-821), `_find_axial_borehole_pairs` (l. 843-933), `find_similarities`
(l. 535-541), `_map_axial_segment_pairs_vertical`, `_map_axial_segment_pairs_inclined` (l. 1053-1098, 1167-1232), `_map_segment_pairs_vertical`,
`_map_segment_pairs_inclined` (l. 1274-1281, 1317-1322), the vertical parts of `thermal_response_factors` (l. 225-229, 244-274),
`_thermal_response_factors_borehole_to_self_vertical` (l. 483-519) and the indices of the inclined parts (l. 340-372, 418-451).

Simplifications: exact arithmetic.  The lists of boreholes, numbers of segments and ratios are functions of the index below `N` (they have the same length, see
`setup_consistent_partial`).  The response factors are those of one time and the line source function of a geometry is a parameter.
-/

noncomputable section

namespace Verif.Sol

open Bore Classical

/-- The field and the options of the solver. -/
structure Sim where
  N : ℕ
  bore : ℕ → Borehole
  ns : ℕ → ℕ
  rs : ℕ → List ℝ
  tol : ℝ
  disTol : ℝ

/-- `np.allclose(a, b, rtol=rtol)` for arrays of the same length. -/
def allclose (rtol : ℝ) (a b : List ℝ) : Prop := ∀ x ∈ List.zip a b, |x.1 - x.2| ≤ 1 / 10 ^ 8 + rtol * |x.2|

/-! ### Comparisons -/

/-- `_compare_boreholes` (l. 567-575). -/
def cmpBoreholes (tol : ℝ) (b1 b2 : Borehole) : Prop :=
  |(b1.H - b2.H) / b1.H| < tol ∧ |(b1.rb - b2.rb) / b1.rb| < tol ∧ |(b1.D - b2.D) / (b1.D + 1 / 10 ^ 30)| < tol ∧
    |(|b1.tilt| - |b2.tilt|)| / (|b1.tilt| + 1 / 10 ^ 30) < tol

/-- `cond_H` (l. 599-600). -/
def condH (tol : ℝ) (p q : Borehole × Borehole) : Prop := |(p.1.H - q.1.H) / p.1.H| < tol ∧ |(p.2.H - q.2.H) / p.2.H| < tol

/-- `_compare_real_pairs_vertical` (l. 595-612). -/
def cmpReal (tol : ℝ) (p q : Borehole × Borehole) : Prop :=
  let d1 := p.2.D - p.1.D
  let d2 := q.2.D - q.1.D
  condH tol p q ∧
    (|d1 - d2| / |d1 + 1 / 10 ^ 30| < tol ∨ (|(p.1.H - p.2.H) / p.1.H| < tol ∧ |(|d1| - |d2|) / (|d1| + 1 / 10 ^ 30)| < tol))

/-- `_compare_image_pairs_vertical` (l. 632-644). -/
def cmpImage (tol : ℝ) (p q : Borehole × Borehole) : Prop :=
  let s1 := p.2.D + p.1.D
  let s2 := q.2.D + q.1.D
  condH tol p q ∧ |(s1 - s2) / (s1 + 1 / 10 ^ 30)| < tol

/-- `_compare_realandimage_pairs_vertical` (l. 665-670). -/
def cmpVertical (tol : ℝ) (p q : Borehole × Borehole) : Prop := cmpReal tol p q ∧ cmpImage tol p q

/-- `np.arctan2(y, x)`. -/
def arctan2 (y x : ℝ) : ℝ := Complex.arg ⟨x, y⟩

/-- Quantities of a pair (l. 792-795, 810-813). -/
def pairDis (p : Borehole × Borehole) : ℝ := √((p.1.x - p.2.x) ^ 2 + (p.1.y - p.2.y) ^ 2)
def pairTheta (p : Borehole × Borehole) : ℝ := arctan2 (p.1.y - p.2.y) (p.1.x - p.2.x)
def sinCos1 (p : Borehole × Borehole) : ℝ := Real.sin p.1.tilt * Real.cos (pairTheta p - p.1.orientation)
def sinCos2 (p : Borehole × Borehole) : ℝ := Real.sin p.2.tilt * Real.cos (pairTheta p - p.2.orientation)

/-- `abs(a - b)/(abs(a) + 1e-30)`. -/
def relDiff (a b : ℝ) : ℝ := |a - b| / (|a| + 1 / 10 ^ 30)

/-- `_compare_realandimage_pairs_inclined` (l. 792-821). -/
def cmpInclined (tol disTol : ℝ) (p q : Borehole × Borehole) : Prop :=
  condH tol p q ∧ (relDiff p.1.D q.1.D < tol ∧ relDiff p.2.D q.2.D < tol) ∧ relDiff (pairDis p) (pairDis q) < disTol ∧
    (relDiff |p.1.tilt| |q.1.tilt| < tol ∧ relDiff |p.2.tilt| |q.2.tilt| < tol) ∧
    (relDiff (sinCos1 p) (sinCos1 q) < tol ∧ relDiff (sinCos2 p) (sinCos2 q) < tol)

/-! ### Groups of boreholes and of pairs of boreholes -/

/-- The loop over the known groups (l. 859-873): the index `i` joins the first group whose first member is similar, or starts a group. -/
def addSelf (ok : ℕ → ℕ → Prop) : List (List ℕ) → ℕ → List (List ℕ)
  | [], i => [[i]]
  | g :: gs, i => if ok i (g.headD 0) then (g ++ [i]) :: gs else g :: addSelf ok gs i

/-- The loop over the known groups of pairs (l. 889-920): the pair or the reciprocal pair joins the first group whose first pair is similar, or the pair starts a group. -/
def addPair (ok : ℕ × ℕ → ℕ × ℕ → Prop) : List (List (ℕ × ℕ)) → ℕ × ℕ → List (List (ℕ × ℕ))
  | [], p => [[p]]
  | g :: gs, p =>
    if ok p (g.headD (0, 0)) then (g ++ [p]) :: gs
    else if ok p.swap (g.headD (0, 0)) then (g ++ [p.swap]) :: gs
    else g :: addPair ok gs p

/-- The four lists returned by `_find_axial_borehole_pairs`. -/
structure Groups where
  selfV : List (List ℕ)
  selfI : List (List ℕ)
  pairV : List (List (ℕ × ℕ))
  pairI : List (List (ℕ × ℕ))

namespace Sim

variable (S : Sim)

/-- `_equal_segment_ratios` (`_base_solver.py`, l. 141-143). -/
def equalRatios : Prop := ∀ k < S.N, S.ns k = S.ns 0 ∧ allclose (1 / 10 ^ 5) (S.rs k) (S.rs 0)

/-- `_uniform_segment_ratios` (`_base_solver.py`, l. 145-149). -/
def uniformAt (k : ℕ) : Prop := allclose (1 / 10 ^ 6) (S.rs k) (List.replicate (S.rs k).length ((S.rs k).headD 0))

/-- l. 865-868, 896-903. -/
def sameRatios (i m : ℕ) : Prop := S.ns i = S.ns m ∧ allclose S.tol (S.rs i) (S.rs m)

/-- Condition at l. 863-868. -/
def okSelf (i m : ℕ) : Prop := cmpBoreholes S.tol (S.bore i) (S.bore m) ∧ (S.equalRatios ∨ S.sameRatios i m)

/-- Conditions at l. 894-903 and 906-915. -/
def okPair (cmp : Borehole × Borehole → Borehole × Borehole → Prop) (p q : ℕ × ℕ) : Prop :=
  cmp (S.bore p.1, S.bore p.2) (S.bore q.1, S.bore q.2) ∧ (S.equalRatios ∨ (S.sameRatios p.1 q.1 ∧ S.sameRatios p.2 q.2))

/-- The turn of the inner loop for one pair (l. 880-920). -/
def pairStep (st : List (List (ℕ × ℕ)) × List (List (ℕ × ℕ))) (p : ℕ × ℕ) : List (List (ℕ × ℕ)) × List (List (ℕ × ℕ)) :=
  if vertical (S.bore p.1) && vertical (S.bore p.2) then (addPair (S.okPair (cmpVertical S.tol)) st.1 p, st.2)
  else (st.1, addPair (S.okPair (cmpInclined S.tol S.disTol)) st.2 p)

/-- The turn of the outer loop for one borehole, without the pairs (l. 853-873). -/
def selfStep (st : List (List ℕ) × List (List ℕ)) (i : ℕ) : List (List ℕ) × List (List ℕ) :=
  if vertical (S.bore i) then (addSelf S.okSelf st.1 i, st.2) else (st.1, addSelf S.okSelf st.2 i)

/-- The pairs `i < j` in the order of the loops (l. 850, 875). -/
def pairs : List (ℕ × ℕ) := (List.range S.N).flatMap fun i => (List.range' (i + 1) (S.N - (i + 1))).map fun j => (i, j)

/-- `_find_axial_borehole_pairs` (l. 843-933).  For a single borehole, `boreholes[0].is_vertical` is a method and counts as true (l. 924). -/
def groups : Groups :=
  if S.N > 1 then
    let s := (List.range S.N).foldl S.selfStep ([], [])
    let p := S.pairs.foldl S.pairStep ([], [])
    ⟨s.1, s.2, p.1, p.2⟩
  else ⟨[[0]], [], [], []⟩

/-! ### Segments -/

/-- First index of the segments of a borehole (`_i0Segments`). -/
def first (k : ℕ) : ℕ := ((List.range k).map S.ns).sum

/-- The segment `a` of the borehole `k`. -/
def seg (k a : ℕ) : Borehole := ((S.bore k).segments (S.rs k)).getD a (S.bore k)

/-- `i_pair`, `j_pair` as pairs (l. 1064-1067). -/
def segPairs (i j : ℕ) : List (ℕ × ℕ) := (List.range (S.ns i)).flatMap fun a => (List.range (S.ns j)).map fun b => (a, b)

/-- One turn of the loop over pairs of segments (l. 1077-1097): unique pairs and `k_pair`. -/
def axialStep (cmp : Borehole × Borehole → Borehole × Borehole → Prop) (i j : ℕ) (st : List (ℕ × ℕ) × List ℕ) (p : ℕ × ℕ) : List (ℕ × ℕ) × List ℕ :=
  match st.1.findIdx? fun u => decide (cmp (S.seg i p.1, S.seg j p.2) (S.seg i u.1, S.seg j u.2)) with
  | some k => (st.1, st.2 ++ [k])
  | none => (st.1 ++ [p], st.2 ++ [st.1.length])

/-- `_map_axial_segment_pairs_*`: unique pairs of segments and `k_pair`. -/
def mapAxial (cmp : Borehole × Borehole → Borehole × Borehole → Prop) (i j : ℕ) : List (ℕ × ℕ) × List ℕ := (S.segPairs i j).foldl (S.axialStep cmp i j) ([], [])

/-! ### Same borehole, vertical -/

variable (K : FLS.Pair → ℝ)

/-- The geometries collected over the groups (l. 492-510); `dis` is the radius of the first borehole of the group. -/
def selfGeometries (gs : List (List ℕ)) : List FLS.Pair :=
  gs.flatMap fun g =>
    let i := g.headD 0
    (S.mapAxial (cmpVertical S.tol) i i).1.map fun u => ⟨(S.bore i).rb, (S.seg i u.1).H, (S.seg i u.1).D, (S.seg i u.2).H, (S.seg i u.2).D⟩

/-- `np.max(k_pair) + 1` (l. 514); `np.max` of an empty array raises, there is at least one segment. -/
def kMax (ks : List ℕ) : ℕ := ks.foldl max 0 + 1

/-- Indices `(j_segment, i_segment, k_segment)` (l. 499-514) with the offset `k0`. -/
def selfIndicesV : ℕ → List (List ℕ) → List (ℕ × ℕ × ℕ)
  | _, [] => []
  | k0, g :: gs =>
    let i := g.headD 0
    let ks := (S.mapAxial (cmpVertical S.tol) i i).2
    (g.flatMap fun n => (List.zip (S.segPairs i i) ks).map fun x => (x.1.2 + S.first n, x.1.1 + S.first n, x.2 + k0)) ++ selfIndicesV (k0 + kMax ks) gs

/-- l. 225-229; an index out of range raises. -/
def selfWritesV (gs : List (List ℕ)) : Option (List Write) :=
  let h := (S.selfGeometries gs).map K
  (S.selfIndicesV 0 gs).mapM fun x =>
    match h[x.2.2]? with
    | some v => some ⟨x.1, x.2.1, v⟩
    | none => none

/-! ### Pairs of boreholes, vertical -/

/-- The geometry of the unique pair `u` of the first pair of boreholes at the distance `d`. -/
def geometry (mn : ℕ × ℕ) (d : ℝ) (u : ℕ × ℕ) : FLS.Pair := ⟨d, (S.seg mn.1 u.1).H, (S.seg mn.1 u.1).D, (S.seg mn.2 u.2).H, (S.seg mn.2 u.2).D⟩

/-- Condition at l. 268-271. -/
def plainReverse (mn : ℕ × ℕ) : Prop :=
  cmpBoreholes S.tol (S.bore mn.2) (S.bore mn.1) ∧ S.ns mn.1 = S.ns mn.2 ∧ S.uniformAt mn.1 ∧ S.uniformAt mn.2

/-- Positions and geometries of a group (l. 249-262, 1274-1281): column, row, geometry; `ds` and `idx` are the distances and indices of the group. -/
def groupEntries (g : List (ℕ × ℕ)) (ds : List ℝ) (idx : ℕ → ℕ) : Option (List (ℕ × ℕ × FLS.Pair)) :=
  let mn := g.headD (0, 0)
  let m := S.mapAxial (cmpVertical S.tol) mn.1 mn.2
  (g.zipIdx.flatMap fun x => (List.zip (S.segPairs mn.1 mn.2) m.2).map fun y => (x, y)).mapM fun z =>
    match ds[idx z.1.2]?, m.1[z.2.2]? with
    | some d, some u => some (z.2.1.1 + S.first z.1.1.1, z.2.1.2 + S.first z.1.1.2, S.geometry mn d u)
    | _, _ => none

/-- l. 263-274. -/
def groupWrites (g : List (ℕ × ℕ)) (ds : List ℝ) (idx : ℕ → ℕ) : Option (List Write) :=
  match S.groupEntries g ds idx with
  | none => none
  | some l => some
    (l.map (fun e => ⟨e.2.1, e.1, K e.2.2⟩) ++
      l.map fun e => ⟨e.1, e.2.1, if S.plainReverse (g.headD (0, 0)) then K e.2.2 else K e.2.2 * e.2.2.H2 / e.2.2.H1⟩)

/-- `thermal_response_factors` for a field without inclined boreholes; `dist g` are the distances and indices returned by `_find_distances` for the group `g`. -/
def factors (dist : List (ℕ × ℕ) → List ℝ × (ℕ → ℕ)) : Option (ℕ → ℕ → ℝ) :=
  let G := S.groups
  match S.selfWritesV K G.selfV, G.pairV.mapM fun g => S.groupWrites K g (dist g).1 (dist g).2 with
  | some w, some ws => some (fill (w ++ ws.flatten) fun _ _ => 0)
  | _, _ => none

/-! ### Indices of the inclined parts -/

/-- Number of geometries of an inclined group, and the increment of `k0` (l. 372, 451). -/
def inclinedCount (ij : ℕ × ℕ) : ℕ := (S.mapAxial (cmpInclined S.tol S.disTol) ij.1 ij.2).1.length
def inclinedIncrement (ij : ℕ × ℕ) : ℕ := (S.mapAxial (cmpInclined S.tol S.disTol) ij.1 ij.2).2.length

/-- The geometries collected over the groups: pairs of boreholes and of segments (l. 356-368, 435-447). -/
def inclinedGeometries (gs : List (ℕ × ℕ)) : List ((ℕ × ℕ) × (ℕ × ℕ)) :=
  gs.flatMap fun ij => (S.mapAxial (cmpInclined S.tol S.disTol) ij.1 ij.2).1.map fun u => (ij, u)

/-- `k_segment` of the pairs of segments of the groups, in order (l. 371-372). -/
def inclinedIndices : ℕ → List (ℕ × ℕ) → List (((ℕ × ℕ) × (ℕ × ℕ)) × ℕ)
  | _, [] => []
  | k0, ij :: gs =>
    ((List.zip (S.segPairs ij.1 ij.2) (S.mapAxial (cmpInclined S.tol S.disTol) ij.1 ij.2).2).map fun x => ((ij, x.1), x.2 + k0)) ++
      inclinedIndices (k0 + S.inclinedIncrement ij) gs

end Sim

end Verif.Sol
