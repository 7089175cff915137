import Verif.FLS.EditModel
import Verif.Gf.SolversModel
import Verif.Gf.TempModel

/-!
# Model of `gFunction` objects evaluated after the boreholes given to them were changed

Models `pygfunction/gfunction.py`: `_format_inputs` (l. 1430), `__init__` (l. 266-280), `evaluate_g_function`: the list of boreholes is the list of the caller, and the solver is
created once; `pygfunction/solvers/_base_solver.py`: `__init__` (l. 120-154: the list, the largest radius, the numbers of segments and the indices of the segments are stored);
`pygfunction/solvers/detailed.py`: `initialize` (l. 155-157: the segments are stored), `thermal_response_factors` (l. 198-228: the number of boreholes is read from the list),
`_thermal_response_factors_borehole_to_self` (l. 264-300: the stored segments, and `is_vertical` of the present boreholes); `pygfunction/solvers/similarities.py`: `initialize`
(l. 170-177: segments, groups and distances are stored), `thermal_response_factors` (l. 225-274, 498-510, 1039-1062: radii and segments are those of the present boreholes).

Simplifications: those of `Verif.Gf.UniformModel` and `Verif.Sol.SimModel` (fields without inclined boreholes for `Similarities`).  The boreholes are given as a list.
`finite_line_source` for an empty list of sources, which is only called when the list has grown, either returns nothing or raises (`empty`).
-/

noncomputable section

namespace Verif.Gf

open Bore FLS Sol

/-! ### What the caller may do -/

/-- Changes of the list of boreholes and of the boreholes in it.  An index out of range raises and changes nothing. -/
inductive Change where
  | assign (i : ℕ) (e : Edit)
  | replace (i : ℕ) (o : BoreObj)
  | append (o : BoreObj)
  | pop

def change (l : List BoreObj) : Change → List BoreObj
  | .assign i e => l.modify i fun o => o.edit e
  | .replace i o => l.set i o
  | .append o => l ++ [o]
  | .pop => l.dropLast

def changes (l : List BoreObj) (cs : List Change) : List BoreObj := cs.foldl change l

/-! ### `Detailed` -/

/-- What the solver stores: `boreSegments`, `nBoreSegments`, the number of elements of `_i0Segments` and `_i1Segments`, `r_b_max`. -/
structure DetObj where
  segs : List Borehole
  ns : List ℕ
  n0 : ℕ
  rbMax : ℝ

/-- Construction (_base_solver.py l. 120-154, detailed.py l. 155-157). -/
def DetObj.new (l : List BoreObj) (ns : List ℕ) (rs : List (List ℝ)) : DetObj :=
  ⟨segmentList (l.map BoreObj.b) ns rs, ns, l.length, (l.map fun o => o.b.rb).foldl max 0⟩

/-- `time_threshold` (_base_solver.py l. 229-232) with the default options. -/
def DetObj.threshold (s : DetObj) (alpha : ℝ) : ℝ := s.rbMax ^ 2 / (25 * alpha)

variable (K : Bool → Borehole → Borehole → ℝ)

/-- l. 206-209, 264-300. -/
def DetObj.selfWrites (s : DetObj) (now : List BoreObj) : Option (List Write) :=
  let idx := selfIndices s.n0 s.ns
  (List.zip idx.1 idx.2).mapM fun x =>
    match s.segs[x.1]?, s.segs[x.2]? with
    | some a, some b => some ⟨x.2, x.1, K (now.all BoreObj.isVertical) a b⟩
    | _, _ => none

/-- l. 214-228: a turn of the loop for which there are no sources, with more boreholes in the list than at construction. -/
def DetObj.sourceless (s : DetObj) (now : List BoreObj) : Bool :=
  (List.range s.n0).any fun i => decide (i + 1 < now.length) && (s.segs.drop (i1 s.ns i)).isEmpty

/-- `thermal_response_factors` at one time, with the boreholes that are in the list `now`. -/
def DetObj.factors (empty : Bool) (s : DetObj) (now : List BoreObj) : Option (ℕ → ℕ → ℝ) :=
  match s.selfWrites K now with
  | none => none
  | some w =>
    if s.sourceless now && !empty then none
    else some (fill (w ++ (List.range s.n0).flatMap (blockWrites K now.length s.ns s.segs)) fun _ _ => 0)

open Classical in
/-- `evaluate_g_function` for `UHTR`. -/
def DetObj.uniform (K : ℝ → Bool → Borehole → Borehole → ℝ) (empty : Bool) (s : DetObj) (now : List BoreObj) (alpha : ℝ) (time : List ℝ) : Option (List ℝ) :=
  if ∀ t ∈ timeLong time (s.threshold alpha), (s.factors (K t) empty now).isSome then
    some (uhtr (fun i : Fin s.segs.length => s.segs[i].H) (fun tl i j => tl.map fun t => ((s.factors (K t) empty now).getD fun _ _ => 0) i j) time (s.threshold alpha))
  else none

open Classical in
/-- `evaluate_g_function` for `UBWT`, with the heat extraction rates. -/
def DetObj.temperature (K : ℝ → Bool → Borehole → Borehole → ℝ) (empty : Bool) (s : DetObj) (now : List BoreObj) (alpha : ℝ) (time : List ℝ) :
    Option (List ℝ × List (Fin s.segs.length → ℝ)) :=
  if ∀ t ∈ timeLong time (s.threshold alpha), (s.factors (K t) empty now).isSome then
    ubwt (fun i : Fin s.segs.length => s.segs[i].H) (fun tl i j => tl.map fun t => ((s.factors (K t) empty now).getD fun _ _ => 0) i j) time (s.threshold alpha)
  else none

/-! ### `Similarities` -/

/-- `thermal_response_factors` of a solver constructed with the boreholes of `S`, evaluated with the boreholes of `S1`; `dist` are the distances and indices stored at construction. -/
def lateFactors (K : FLS.Pair → ℝ) (S S1 : Sim) (dist : List (ℕ × ℕ) → List ℝ × (ℕ → ℕ)) : Option (ℕ → ℕ → ℝ) :=
  let G := S.groups
  match S1.selfWritesV K G.selfV, G.pairV.mapM fun g => S1.groupWrites K g (dist g).1 (dist g).2 with
  | some w, some ws => some (fill (w ++ ws.flatten) fun _ _ => 0)
  | _, _ => none

/-- `evaluate_g_function` for `UHTR`: the lengths are those of the stored segments. -/
def lateSimilarities (K : ℝ → FLS.Pair → ℝ) (S S1 : Sim) (dist : List (ℕ × ℕ) → List ℝ × (ℕ → ℕ)) (time : List ℝ) (thr : ℝ) : Option (List ℝ) :=
  uniformOf (lengths S) (fun t => lateFactors (K t) S S1 dist) time thr

end Verif.Gf
