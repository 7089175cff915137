import Verif.Sol.SolveModel
import Verif.Sol.DetModel
import Verif.Gf.DispatchModel

/-!
# Model of the curves that `gFunction` draws

Models `pygfunction/gfunction.py`: `_heat_extraction_rates` (l. 1138-1179), `_heat_extraction_rate_profiles` (l. 1181-1260), `_temperatures` (l. 1262-1303) and
`_temperature_profiles` (l. 1305-1400), whose results are the curves of `visualize_heat_extraction_rates`, `visualize_heat_extraction_rate_profiles`,
`visualize_temperatures` and `visualize_temperature_profiles`, for one borehole `i`.

The arrays `Q_b` and `T_b` of the solver with the shape `(nSources, nt)` are lists over the times of lists over the sources; with several mass flow rates there is one such list for each.
Simplifications: exact arithmetic.  An exception is `none`.  Indices of boreholes are not negative.  The number of values of a borehole is its number of ratios (numpy would repeat
a single value; the lengths agree for the lists that the constructor accepts, see `setup_consistent_partial`).
-/

noncomputable section

namespace Verif.Gf

open Bore Sol

/-- `x[a:b]`. -/
def slice {α : Type} (a b : ℕ) (x : List α) : List α := (x.drop a).take (b - a)

/-- `np.sum(x * segment_ratios)`. -/
def ratioSum (r x : List ℝ) : Option ℝ := if x.length = r.length then some (List.zipWith (· * ·) x r).sum else none

/-- Numbers and ratios of the segments of all boreholes. -/
structure Segs where
  ns : List ℕ
  rs : List (List ℝ)

/-- `T_b` that the solver stores for `UHTR` (l. 258, 269, 277 of `_base_solver.py`), for the source `j`. -/
def uhtrTs {n : ℕ} (resp : List ℝ → Fin n → Fin n → List ℝ) (time : List ℝ) (thr : ℝ) (j : Fin n) : List ℝ :=
  linearize time thr ((List.range (timeLong time thr).length).map fun p => uhtrT (resp (timeLong time thr)) p j)

/-- Average over the segments of the borehole `i`, at all times (l. 1164-1172, 1287-1295). -/
def averages (s : Segs) (Q : List (List ℝ)) (i : ℕ) : Option (List ℝ) :=
  match s.ns[i]?, s.rs[i]? with
  | some _, some r => Q.mapM fun x => ratioSum r (slice (i0 s.ns i) (i1 s.ns i) x)
  | _, _ => none

/-- `_heat_extraction_rates` without several mass flow rates (l. 1155-1172); for `UHTR` the solver stores `Q_b = 1`. -/
def rateCurve (bc : BC) (s : Segs) (Q : List (List ℝ)) (nt i : ℕ) : Option (List ℝ) :=
  match bc with
  | .UHTR => some (List.replicate nt 1)
  | _ => averages s Q i

/-- `_heat_extraction_rates` with several mass flow rates, possible for `MIFT` only (l. 1173-1178). -/
def rateCurves (s : Segs) (Q : List (List (List ℝ))) (i : ℕ) : Option (List (List ℝ)) := Q.mapM fun q => averages s q i

/-- `_temperatures` without several mass flow rates (l. 1279-1295); for `UBWT` there is one temperature for each time. -/
def tempCurve (bc : BC) (s : Segs) (T : List (List ℝ)) (Tu : List ℝ) (i : ℕ) : Option (List ℝ) :=
  match bc with
  | .UBWT => some Tu
  | _ => averages s T i

/-- Depths of the points of a profile (l. 1241-1256, 1376-1396); for the boundary condition with one value (`UHTR` for rates, `UBWT` for temperatures), l. 1207-1209, 1334-1336. -/
def depths (b : Borehole) (single : Bool) (r : List ℝ) : List ℝ :=
  if !single && decide (1 < r.length) then (b.midpoints r).map (b.D + ·) else [b.D, b.D + b.H]

/-- Values of the sources of the borehole `i` at the time of the profile (l. 1215-1240): at the last time step, or interpolated. -/
def valuesAt (s : Segs) (times : List ℝ) (Q : List (List ℝ)) (i : ℕ) : Option ℝ → Option (List ℝ)
  | none => Q.getLast?.map (slice (i0 s.ns i) (i1 s.ns i))
  | some t => (slice (i0 s.ns i) (i1 s.ns i) (List.range s.ns.sum)).mapM fun j => interp (List.zip times (Q.map fun x => x.getD j 0)) t

/-- `np.repeat(x, 2)` for a single segment (l. 1257-1258). -/
def doubled (r x : List ℝ) : List ℝ := if 1 < r.length then x else x.flatMap fun v => [v, v]

/-- `_heat_extraction_rate_profiles` without several mass flow rates: depths and rates. -/
def rateProfile (bc : BC) (bs : List Borehole) (s : Segs) (times : List ℝ) (Q : List (List ℝ)) (time : Option ℝ) (i : ℕ) : Option (List ℝ × List ℝ) :=
  match bs[i]?, s.rs[i]? with
  | some b, some r =>
    match bc with
    | .UHTR => some (depths b true r, [1, 1])
    | _ =>
      match valuesAt s times Q i time with
      | some x => some (depths b false r, doubled r x)
      | none => none
  | _, _ => none

/-- `_heat_extraction_rate_profiles` with several mass flow rates: the values for each mass flow rate.  With a time, `Q_b[i0:i1,:]` takes rows of the first axis, the mass flow rates
(l. 1234-1240). -/
def rateProfiles (s : Segs) (times : List ℝ) (Q : List (List (List ℝ))) (i : ℕ) : Option ℝ → Option (List (List ℝ))
  | none => Q.mapM fun q => q.getLast?.map (slice (i0 s.ns i) (i1 s.ns i))
  | some t => (slice (i0 s.ns i) (i1 s.ns i) Q).mapM fun q => (List.range s.ns.sum).mapM fun j => interp (List.zip times (q.map fun x => x.getD j 0)) t

/-- `_temperature_profiles` without several mass flow rates.  For `UBWT` the code calls `np.asscalar`, which numpy 1.26.4 (the oldest version that the package accepts) does not have:
`AttributeError` (l. 1340, 1343). -/
def tempProfile (bc : BC) (bs : List Borehole) (s : Segs) (times : List ℝ) (T : List (List ℝ)) (time : Option ℝ) (i : ℕ) : Option (List ℝ × List ℝ) :=
  match bs[i]?, s.rs[i]? with
  | some b, some r =>
    match bc with
    | .UBWT => none
    | _ =>
      match valuesAt s times T i time with
      | some x => some (depths b false r, doubled r x)
      | none => none
  | _, _ => none

/-- `_temperature_profiles` with several mass flow rates (l. 1352-1379).  With a time, the code first interpolates along the axis of the sources (l. 1360-1364), which raises unless
there are as many sources as times, and then takes rows of the axis of the mass flow rates. -/
def tempProfiles (s : Segs) (times : List ℝ) (T : List (List (List ℝ))) (i : ℕ) : Option ℝ → Option (List (List ℝ))
  | none => rateProfiles s times T i none
  | some t => if s.ns.sum = times.length then rateProfiles s times T i (some t) else none

end Verif.Gf
