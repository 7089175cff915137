import Verif.FLS.ListModel

/-!
# Model of the forms of the argument `time` of `finite_line_source`

Models `pygfunction/heat_transfer.py`: `finite_line_source` (l. 204-279): the tests `time is np.inf` (l. 210, 247) and `isinstance(time, (np.floating, float))`
(l. 224, 267), with the behaviour of numpy for the other types.  This behaviour is assumed from general knowledge of numpy, and was not checked against its source nor
by running it: slices of numpy numbers raise an exception, `np.stack` of an empty list raises an exception, a numpy number times a list is an array, and `exp1` at 0
is not finite.

Simplifications: two boreholes (not lists); times are positive and arrays have one dimension or none; an exception is `raises`, whatever its type; a result that is
infinite or is not a number is `notFinite`.
-/

noncomputable section

namespace Verif.FLS

open Bore

/-- What a caller can pass as `time`. -/
inductive TimeArg where
  /-- The object `np.inf`. -/
  | npInf
  /-- Another infinite float: `float('inf')`, `np.float64(np.inf)` or the result of a computation. -/
  | otherInf
  /-- A python float or a numpy floating-point number. -/
  | float (t : ℝ)
  /-- A python or numpy integer. -/
  | int (k : ℕ)
  /-- An array without dimension, e.g. `np.array(3600.)`. -/
  | arr0 (t : ℝ)
  /-- An array. -/
  | arr (ts : List ℝ)
  /-- A python list. -/
  | list (ts : List ℝ)

/-- What the caller observes. -/
inductive Out where
  | raises
  | notFinite
  | value (r : Res)

def Out.ofOption : Option Res → Out
  | none => .raises
  | some r => .value r

/-- Without the approximation, the lower bound of integration of an infinite time is `1/inf = 0` (l. 224-227, 267-270). -/
def infIntegral (o : FlsOpts) (b1 b2 : Borehole) : ℝ :=
  if isVertical b1 && isVertical b2 then 0.5 / b2.H * quad (integrand (pairOf b1 b2) o.rea o.img) 0 none
  else 0.5 / b2.H * quad (Incl.integrand b1 b2 o.nodes o.rea o.img) 0 none

/-- With the approximation, `exp1` is evaluated at 0, where it is infinite (l. 441-449, 600-604); with inclined boreholes and no source, zero is returned
(l. 647-649).  The coefficients are evaluated before (l. 439). -/
def infApprox (o : FlsOpts) (b1 b2 : Borehole) : Out :=
  if (erfCoeffs o.N).isNone then .raises
  else if !(isVertical b1 && isVertical b2) && !o.rea && !o.img then .value (.pair (.one 0))
  else .notFinite

/-- An array of times (l. 228-236, 271-279): `np.stack` raises an exception for an empty array, that is not reached with the approximation. -/
def formArray (o : FlsOpts) (ts : List ℝ) (b1 b2 : Borehole) : Out :=
  if !o.approximation && ts.isEmpty then .raises else .ofOption (finiteLineSource o (.array ts) (.one b1) (.one b2))

/-- A number that is not a float (l. 228-232, 271-275): `a` is a numpy number, and `a[:-1]` raises an exception.  The approximation accepts it. -/
def formNumber (o : FlsOpts) (t : ℝ) (b1 b2 : Borehole) : Out :=
  if o.approximation then .ofOption (finiteLineSource o (.at t) (.one b1) (.one b2)) else .raises

/-- `finite_line_source` for two boreholes; `npAlpha` tells that `alpha` is a numpy number, in which case `alpha*time` turns a list into an array; a python number raises an
exception (l. 226, 230, 269, 273, 401, 565). -/
def flsForm (o : FlsOpts) (npAlpha : Bool) (time : TimeArg) (b1 b2 : Borehole) : Out :=
  match time with
  | .npInf => .ofOption (finiteLineSource o .inf (.one b1) (.one b2))
  | .otherInf => if o.approximation then infApprox o b1 b2 else .value (.pair (.one (infIntegral o b1 b2)))
  | .float t => .ofOption (finiteLineSource o (.at t) (.one b1) (.one b2))
  | .int k => formNumber o k b1 b2
  | .arr0 t => formNumber o t b1 b2
  | .arr ts => formArray o ts b1 b2
  | .list ts => if npAlpha then formArray o ts b1 b2 else .raises

end Verif.FLS
