import Verif.Net.FlowModel

/-!
# Model of the formatting of all the arguments of `networks.Network`

`Network._format_inputs` (`pygfunction/networks.py` l. 1225-1296).  `FlowModel.format` models the flow rates and
the heat capacities (l. 1230-1274); this file adds the numbers of segments and the segment ratios
(l. 1276-1296).  A scalar argument is a list of one element (`np.atleast_1d`); several values are an array
(comparing a Python list with `0.`, l. 1240, raises `TypeError`).
-/

noncomputable section

namespace Verif.Net

/-- The argument `segment_ratios`: `None`, one array for all boreholes, a list with one entry
(an array or `None`) per borehole, or an object of another type. -/
inductive RatioArg where
  | none
  | array (r : List ℝ)
  | list (l : List (Option (List ℝ)))
  | other

/-- Number of segments of each borehole (l. 1277-1284); `n` boreholes. -/
def formatSegments (n : ℕ) (nSeg : List ℕ) : Except Err (List ℕ) :=
  match nSeg with
  | [a] => .ok (List.replicate n a)
  | _ => if nSeg.length = n then .ok nSeg else .error .value

/-- Segment ratios of each borehole (l. 1287-1296); the length of a list is not verified. -/
def formatRatios (n : ℕ) (r : RatioArg) : Except Err (List (Option (List ℝ))) :=
  match r with
  | .none => .ok (List.replicate n Option.none)
  | .array r => .ok (List.replicate n (some r))
  | .list l => .ok l
  | .other => .error .value

/-- The formatted arguments. -/
structure Inputs where
  flow : Formatted
  nSeg : List ℕ
  ratios : List (Option (List ℝ))

/-- `Network._format_inputs` (l. 1225-1296), in the order of the checks. -/
def formatInputs (t : Topology) (m cp : List ℝ) (nSeg : List ℕ) (r : RatioArg) : Except Err Inputs :=
  match format t m cp with
  | .error e => .error e
  | .ok f =>
    match formatSegments t.n nSeg with
    | .error e => .error e
    | .ok s =>
      match formatRatios t.n r with
      | .error e => .error e
      | .ok q => .ok ⟨f, s, q⟩

end Verif.Net
