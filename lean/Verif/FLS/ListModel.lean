import Verif.FLS.ApproxModel

/-!
# Model of `finite_line_source` for boreholes and lists of boreholes

Models `pygfunction/heat_transfer.py`: `finite_line_source` (l. 204-346), all branches.

Simplifications: those of the functions called (`Verif.FLS.Model`, `InclModel`, `ApproxModel`); `M` is replaced by the nodes and weights of the quadrature; time is
`np.inf`, a float, or a non-empty array of floats (the sum over no interval of l. 253-256 is an error in the code and an empty list here); an array of shape
`(M, N, K)` is the table of its vectors over the last axis.
-/

noncomputable section

namespace Verif.FLS

open Bore

/-- `isinstance(borehole, Borehole)` or a list. -/
inductive Who where
  | one (b : Borehole)
  | many (l : List Borehole)

/-- `time`: `np.inf`, a float or an array. -/
inductive When where
  | inf
  | at (t : ℝ)
  | array (ts : List ℝ)

/-- The values for one pair: a number, or one number per time. -/
inductive Vals where
  | one (x : ℝ)
  | many (l : List ℝ)

/-- The value returned: for two boreholes, or a table with one line for each receiver and one column for each source. -/
inductive Res where
  | pair (v : Vals)
  | table (v : List (List Vals))

/-- The other arguments. -/
structure FlsOpts where
  alpha : ℝ
  rea : Bool
  img : Bool
  approximation : Bool
  nodes : List (ℝ × ℝ)
  N : ℤ

/-- `is_vertical` (boreholes.py l. 163). -/
def isVertical (b : Borehole) : Bool := !decide (tilted b.tilt)

/-- Vertical boreholes (l. 212-236, 296-312). -/
def flsVertical (o : FlsOpts) (g : Pair) : When → Option Vals
  | .inf => some (.one (steady g o.rea o.img))
  | .at t => if o.approximation then (approx t o.alpha g o.rea o.img o.N).map .one else some (.one (fls t o.alpha g o.rea o.img))
  | .array ts =>
    if o.approximation then (erfCoeffs o.N).map fun ab => .many (ts.map fun t => approxWith exp1 ab t o.alpha g o.rea o.img)
    else some (.many (flsMany ts o.alpha g o.rea o.img))

/-- Inclined boreholes (l. 246-279, 324-345). -/
def flsInclined (o : FlsOpts) (b1 b2 : Borehole) : When → Option Vals
  | .inf => some (.one (Incl.steady b1 b2 o.nodes o.rea o.img))
  | .at t => if o.approximation then (Incl.approx t o.alpha b1 b2 o.nodes o.rea o.img o.N).map .one else some (.one (Incl.fls t o.alpha b1 b2 o.nodes o.rea o.img))
  | .array ts =>
    if o.approximation then (erfCoeffs o.N).map fun ab => .many (ts.map fun t => Incl.approxWith exp1 ab t o.alpha b1 b2 o.nodes o.rea o.img)
    else some (.many (Incl.flsMany ts o.alpha b1 b2 o.nodes o.rea o.img))

/-- The elements `[i, j]` of the arrays of geometries (l. 288-294): `dis` is at least the radius of the source. -/
def listPair (b1 b2 : Borehole) : Pair :=
  ⟨max (√((b2.x + -b1.x) ^ 2 + (b2.y + -b1.y) ^ 2)) b1.rb, b1.H, b1.D, b2.H, b2.D⟩

/-- `if isinstance(borehole, Borehole): borehole = [borehole]` (l. 283-284). -/
def Who.toList : Who → List Borehole
  | .one b => [b]
  | .many l => l

/-- The table of all pairs: lines over the receivers, columns over the sources. -/
def table (l1 l2 : List Borehole) (f : Borehole → Borehole → Option Vals) : Option Res :=
  (l2.mapM fun b2 => l1.mapM fun b1 => f b1 b2).map .table

/-- Two boreholes (l. 204-279). -/
def flsPair (o : FlsOpts) (time : When) (b1 b2 : Borehole) : Option Res :=
  (if isVertical b1 && isVertical b2 then flsVertical o (pairOf b1 b2) time else flsInclined o b1 b2 time).map .pair

/-- Lists (l. 281-345). -/
def flsLists (o : FlsOpts) (time : When) (l1 l2 : List Borehole) : Option Res :=
  if l1.all isVertical && l2.all isVertical then table l1 l2 fun b1 b2 => flsVertical o (listPair b1 b2) time
  else table l1 l2 fun b1 b2 => flsInclined o b1 b2 time

/-- `finite_line_source`. -/
def finiteLineSource (o : FlsOpts) (time : When) : Who → Who → Option Res
  | .one b1, .one b2 => flsPair o time b1 b2
  | w1, w2 => flsLists o time w1.toList w2.toList

end Verif.FLS
