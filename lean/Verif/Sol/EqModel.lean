import Verif.Sol.SimModel

/-!
# Model of the `Equivalent` solver

Models `pygfunction/solvers/equivalent.py`: `find_groups` (l. 343-404), `_compare_boreholes` (l. 467-474), `_find_unique_boreholes` (l. 653-665), `_find_axial_borehole_pairs`
(l. 593-635), `_find_unique_distances` (l. 688-708), `segment_lengths` (l. 439-447), `thermal_response_factors` for one time (l. 242-299), and
`pygfunction/boreholes.py`: `_EquivalentBorehole.__init__` (l. 343-367), `_EquivalentBorehole.distance` (l. 399-403).
`_compare_real_pairs`, `_compare_image_pairs`, `_compare_realandimage_pairs` (l. 494-568) and `_map_axial_segment_pairs` (l. 747-806) are the same text as in `similarities.py`; the
definitions `cmpVertical` and `Sim.mapAxial` are used for them.

Simplifications: exact arithmetic, vertical boreholes of tilt exactly 0 (l. 824).  The clustering by `scipy` (`linkage`, `dendrogram`, `cut_tree`, l. 360-383) is a function `cut` from the
temperatures of a group to the number of clusters and the labels; `CutOk` states what is assumed of it.
-/

noncomputable section

namespace Verif.Sol

open Bore Classical

/-! ### Groups and equivalent boreholes -/

/-- `_EquivalentBorehole`. -/
structure EqBore where
  H : ℝ
  D : ℝ
  rb : ℝ
  pos : List (ℝ × ℝ)

/-- `_EquivalentBorehole.__init__` for boreholes (l. 343-350); `boreholes[0]` raises for an empty list. -/
def eqOf : List Borehole → Option EqBore
  | [] => none
  | b :: bs => some ⟨b.H, b.D, b.rb, (b :: bs).map fun b => (b.x, b.y)⟩

/-- `_compare_boreholes` (l. 467-474). -/
def cmpDims (tol : ℝ) (b1 b2 : Borehole) : Prop :=
  |(b1.H - b2.H) / b1.H| < tol ∧ |(b1.rb - b2.rb) / b1.rb| < tol ∧ |(b1.D - b2.D) / (b1.D + 1 / 10 ^ 30)| < tol

/-- What is assumed of the clustering (l. 357-383): one label per borehole, the labels are `0 … nClusters - 1` and all occur.  When all temperatures are equal, all heights of the tree are
zero, so `nClustersMax` (l. 375) is 1. -/
structure CutOk (cut : List ℝ → ℕ × List ℕ) : Prop where
  len : ∀ d, 1 < d.length → (cut d).2.length = d.length
  lt : ∀ d, 1 < d.length → ∀ l ∈ (cut d).2, l < (cut d).1
  surj : ∀ d, 1 < d.length → ∀ l < (cut d).1, l ∈ (cut d).2
  equal : ∀ d, 1 < d.length → (∀ x ∈ d, ∀ y ∈ d, x = y) → (cut d).1 = 1

/-- The field given to the solver. -/
structure EqIn where
  N : ℕ
  bore : ℕ → Borehole
  tol : ℝ
  disTol : ℝ
  cut : List ℝ → ℕ × List ℕ

namespace EqIn

variable (E : EqIn)

/-- `data` (l. 349): the steady-state temperatures of the boreholes for unit extraction from all of them. -/
def temp (i : ℕ) : ℝ := ((List.range E.N).map fun j => FLS.steady (FLS.pairOf (E.bore j) (E.bore i)) true true).sum

/-- `_find_unique_boreholes` (l. 653-665). -/
def uniqueBoreholes : List (List ℕ) := (List.range E.N).foldl (addSelf fun i m => cmpDims E.tol (E.bore i) (E.bore m)) []

/-- One turn of the loop over groups (l. 355-389): `clusters` and `nEqBoreholes`. -/
def clusterStep (st : List ℕ × ℕ) (g : List ℕ) : List ℕ × ℕ :=
  if g.length > 1 then
    let c := E.cut (g.map E.temp)
    (st.1 ++ c.2.map (· + st.2), st.2 + c.1)
  else (st.1 ++ [st.2], st.2 + 1)

/-- `clusters` and `nEqBoreholes` (l. 347-392). -/
def clusters : List ℕ × ℕ := if E.N > 1 then E.uniqueBoreholes.foldl E.clusterStep ([], 0) else (List.range E.N, E.N)

/-- The boreholes of the equivalent borehole `i` (l. 395-397). -/
def members (i : ℕ) : List Borehole := ((List.zip ((List.range E.N).map E.bore) E.clusters.1).filter fun x => x.2 = i).map fun x => x.1

/-- l. 346, 394-398: the equivalent borehole of the whole field is built first. -/
def equivalents : Option (List EqBore) :=
  match eqOf ((List.range E.N).map E.bore) with
  | none => none
  | some _ => (List.range E.clusters.2).mapM fun i => eqOf (E.members i)

end EqIn

/-! ### Distances -/

/-- `_EquivalentBorehole.distance` of two boreholes at `p` and `q` (`boreholes.py`, l. 399-402). -/
def posDist (rb : ℝ) (p q : ℝ × ℝ) : ℝ := max √((q.1 - p.1) ^ 2 + (q.2 - p.2) ^ 2) rb

/-- `b1.distance(b2).flatten()` (l. 694). -/
def distances (b1 b2 : EqBore) : List ℝ := b2.pos.flatMap fun q => b1.pos.map fun p => posDist b1.rb p q

/-- `b1.distance(b2)[~np.eye(b1.nBoreholes)].flatten()` for the same borehole (l. 697-698). -/
def distancesOff (b : EqBore) : List ℝ := b.pos.zipIdx.flatMap fun q => (b.pos.zipIdx.filter fun p => p.2 ≠ q.2).map fun p => posDist b.rb p.1 q.1

/-- Position of a distance in the sorted list of distances (l. 701-704): `searchsorted`, or the position before when that is closer.  An empty list raises. -/
def nearest (dis : List ℝ) (x : ℝ) : Option ℕ :=
  if dis = [] then none
  else
    let i := dis.findIdx fun d => decide (x ≤ d)
    if i = dis.length ∨ |x - dis.getD (i - 1) 0| < |x - dis.getD (min i (dis.length - 1)) 0| then some (i - 1) else some i

/-- `wDis[:, k]` (l. 699-706). -/
def weights (dis xs : List ℝ) : Option (List ℕ) :=
  match xs.mapM (nearest dis) with
  | none => none
  | some is => some ((List.range dis.length).map fun k => is.count k)

/-! ### Response factors -/

/-- The equivalent boreholes, with the same segments for all (l. 194-195), and the distances of the field (l. 404). -/
structure EqSol where
  n : ℕ
  eb : ℕ → EqBore
  ns : ℕ
  rs : List ℝ
  tol : ℝ
  dis : List ℝ

namespace EqSol

variable (E : EqSol)

/-- Lengths, depths and segments of the equivalent boreholes; the positions and the tolerance on distances are not used. -/
def sim : Sim := ⟨E.n, fun i => ⟨(E.eb i).H, (E.eb i).D, (E.eb i).rb, 0, 0, 0, 0⟩, fun _ => E.ns, fun _ => E.rs, E.tol, 1⟩

/-- The pairs `i ≤ j` (l. 598, 613). -/
def pairs : List (ℕ × ℕ) := (List.range E.n).flatMap fun i => (List.range' i (E.n - i)).map fun j => (i, j)

def okPair (p q : ℕ × ℕ) : Prop := cmpVertical E.tol (E.sim.bore p.1, E.sim.bore p.2) (E.sim.bore q.1, E.sim.bore q.2)
def okSelf (i m : ℕ) : Prop := cmpDims E.tol (E.sim.bore i) (E.sim.bore m)

/-- `_find_axial_borehole_pairs` (l. 593-635). -/
def selfGroups : List (List ℕ) := if E.n > 1 then (List.range E.n).foldl (addSelf E.okSelf) [] else [[0]]
def pairGroups : List (List (ℕ × ℕ)) := if E.n > 1 then E.pairs.foldl (addPair E.okPair) [] else [[(0, 0)]]

/-- `nBoreholes` (l. 367). -/
def size (i : ℕ) : ℕ := (E.eb i).pos.length

/-- `segment_lengths` (l. 439-447). -/
def segLen (i a : ℕ) : ℝ := (E.sim.seg i a).H * E.size i

/-- Distances and weights of a pair (l. 690-706). -/
def disWeights (i j : ℕ) : Option (List (ℝ × ℝ)) :=
  match weights E.dis (if i = j then distancesOff (E.eb i) else distances (E.eb i) (E.eb j)) with
  | none => none
  | some w => some (List.zip E.dis (w.map fun (k : ℕ) => (k : ℝ)))

variable (KE : FLS.Pair → List (ℝ × ℝ) → ℕ → ℝ) (K : FLS.Pair → ℝ)

/-- Assignments of the pair `(i, j)` of a group with first pair `mn` (l. 254-272). -/
def pairWrites (mn ij : ℕ × ℕ) : Option (List Write) :=
  let m := E.sim.mapAxial (cmpVertical E.tol) mn.1 mn.2
  match E.disWeights ij.1 ij.2 with
  | none => none
  | some dw =>
    match (List.zip (E.sim.segPairs mn.1 mn.2) m.2).mapM fun y => m.1[y.2]?.map fun u => (y.1, KE (E.sim.geometry mn 0 u) dw (E.size ij.2)) with
    | none => none
    | some l => some
      (l.map (fun e => ⟨e.1.2 + E.sim.first ij.2, e.1.1 + E.sim.first ij.1, e.2⟩) ++
        if ij.1 = ij.2 then [] else l.map fun e => ⟨e.1.1 + E.sim.first ij.1, e.1.2 + E.sim.first ij.2, e.2 * E.segLen ij.2 e.1.2 / E.segLen ij.1 e.1.1⟩)

/-- l. 250-272. -/
def groupWrites (g : List (ℕ × ℕ)) : Option (List Write) := (g.mapM fun ij => E.pairWrites KE (g.headD (0, 0)) ij).map List.flatten

/-- Values added for the borehole `k` of a group with first borehole `i` (l. 281-299). -/
def selfAdds (i k : ℕ) : Option (List Write) :=
  let m := E.sim.mapAxial (cmpVertical E.tol) i i
  (List.zip (E.sim.segPairs i i) m.2).mapM fun y => m.1[y.2]?.map fun u => ⟨y.1.2 + E.sim.first k, y.1.1 + E.sim.first k, K (E.sim.geometry (i, i) (E.eb i).rb u)⟩

/-- `h_ij[j_segment, i_segment, 1:] = h_ij[j_segment, i_segment, 1:] + h`: the right-hand side is evaluated first. -/
def addTo (M : ℕ → ℕ → ℝ) (ws : List Write) : ℕ → ℕ → ℝ := fill (ws.map fun w => ⟨w.row, w.col, M w.row w.col + w.value⟩) M

/-- `thermal_response_factors` (l. 242-299) for one time. -/
def factors : Option (ℕ → ℕ → ℝ) :=
  match E.pairGroups.mapM (E.groupWrites KE), (E.selfGroups.flatMap fun g => g.map fun k => (g.headD 0, k)).mapM fun x => E.selfAdds K x.1 x.2 with
  | some ws, some adds => some (adds.foldl addTo (fill ws.flatten fun _ _ => 0))
  | _, _ => none

end EqSol

end Verif.Sol
