import Verif.Bore.Model

/-!
# Model of the discretization of the boreholes and of the `Detailed` solver

Models `pygfunction/solvers/_base_solver.py`: the parts of `__init__` (l. 127-154), `_check_inputs` (l. 583, 606-611, 635-643) and `borehole_segments` (l. 493-498) about
segments, and `pygfunction/solvers/detailed.py`: `initialize` (l. 155-157), `thermal_response_factors` (l. 198-232) and `_thermal_response_factors_borehole_to_self`
(l. 264-300).

Simplifications: exact arithmetic.  An exception is `none`.  The response factors are those of one time: numpy evaluates all times alike along the last axis.
`finite_line_source`, `finite_line_source_vectorized` and `finite_line_source_inclined_vectorized` are a function `K vertical source receiver`.
-/

noncomputable section

namespace Verif.Sol

open Bore

/-! ### Discretization -/

/-- The argument `nSegments`. -/
inductive NSeg where
  | int (n : ℤ)
  | list (l : List ℤ)
  | other

/-- The argument `segment_ratios`; a function may raise. -/
inductive Ratios where
  | array (r : List ℝ)
  | uniform
  | callable (f : ℤ → Option (List ℝ))
  | list (l : List (List ℝ))

/-- l. 129-132.  Objects that are neither integers nor lists are rejected by the check at l. 606. -/
def boreSegments (nB : ℕ) : NSeg → Option (List ℤ)
  | .int n => some (List.replicate nB n)
  | .list l => some l
  | .other => none

/-- l. 136: `np.full(n, 1./n)` raises for `n <= 0` (division by zero, negative dimension). -/
def fullRatios (n : ℤ) : Option (List ℝ) := if n ≤ 0 then none else some (uniformRatios n.toNat)

/-- l. 133-138. -/
def formatRatios (nB : ℕ) (ns : List ℤ) : Ratios → Option (List (List ℝ))
  | .array r => some (List.replicate nB r)
  | .uniform => ns.mapM fullRatios
  | .callable f => ns.mapM f
  | .list l => some l

/-- Shapes that `np.allclose` accepts. -/
def shapesOk (a b : ℕ) : Prop := a = b ∨ a = 1 ∨ b = 1

instance (a b : ℕ) : Decidable (shapesOk a b) := by unfold shapesOk; infer_instance

/-- l. 141-143: the evaluation of `_equal_segment_ratios` raises for an empty list, or when the numbers of segments are all the same and the ratios have other shapes. -/
def equalRatiosOk (ns : List ℤ) (rs : List (List ℝ)) : Prop :=
  ns ≠ [] ∧ ((∀ n ∈ ns, n = ns.headD 0) → ∀ r ∈ rs, shapesOk r.length (rs.headD []).length)

/-- l. 635-643 for one borehole. -/
def ratioOk (r : List ℝ) (n : ℤ) : Prop := (r.length : ℤ) = n ∧ |1 - r.sum| < 1 / 10 ^ 6

open Classical in
/-- Construction: the numbers of segments and the ratios, or an exception.  The condition on the length of the list at l. 606-607 compares it to itself. -/
def setup (nB : ℕ) (nSegments : NSeg) (ratios : Ratios) : Option (List ℤ × List (List ℝ)) :=
  match boreSegments nB nSegments with
  | none => none
  | some ns =>
    match formatRatios nB ns ratios with
    | none => none
    | some rs =>
      if ¬ equalRatiosOk ns rs then none
      else if ¬ (0 < nB) then none
      else if ¬ (ns.length = ns.length ∧ ∀ n ∈ ns, 1 ≤ n) then none
      else if ¬ (∀ p ∈ List.zip rs ns, ratioOk p.1 p.2) then none
      else some (ns, rs)

/-- `_i0Segments` and `_i1Segments` (l. 151-154). -/
def i0 (ns : List ℕ) (i : ℕ) : ℕ := (ns.take i).sum
def i1 (ns : List ℕ) (i : ℕ) : ℕ := (ns.take (i + 1)).sum

/-- `borehole_segments` (l. 493-498): `zip` stops at the shortest list. -/
def segmentList (bs : List Borehole) (ns : List ℕ) (rs : List (List ℝ)) : List Borehole :=
  (List.zip bs (List.zip ns rs)).flatMap fun x => x.1.segments x.2.2

/-! ### Assignment of the response factors -/

/-- One assignment `h_ij[row, col] = value`. -/
structure Write where
  row : ℕ
  col : ℕ
  value : ℝ

/-- A sequence of assignments. -/
def fill : List Write → (ℕ → ℕ → ℝ) → ℕ → ℕ → ℝ
  | [], M => M
  | w :: ws, M => fill ws fun r c => if r = w.row ∧ c = w.col then w.value else M r c

/-- `np.arange(a, b)`. -/
def arange (a b : ℕ) : List ℕ := List.range' a (b - a)

/-- `np.repeat(x, n)` and `np.tile(x, n)`. -/
def npRepeat (x : List ℕ) (n : ℕ) : List ℕ := x.flatMap fun a => List.replicate n a
def npTile (x : List ℕ) (n : ℕ) : List ℕ := (List.replicate n x).flatten

def vertical (b : Borehole) : Bool := !decide (tilted b.tilt)

variable (K : Bool → Borehole → Borehole → ℝ)

/-- `i_segment` and `j_segment` (l. 264-273). -/
def selfIndices (nB : ℕ) (ns : List ℕ) : List ℕ × List ℕ :=
  let z := (List.range nB).zip ns
  (z.flatMap fun x => npRepeat (arange (i0 ns x.1) (i1 ns x.1)) x.2, z.flatMap fun x => npTile (arange (i0 ns x.1) (i1 ns x.1)) x.2)

/-- l. 206-209: the value for the source `i` and the receiver `j`, assigned to `h_ij[j, i]`; an index out of range raises. -/
def selfWrites (bs : List Borehole) (ns : List ℕ) (segs : List Borehole) : Option (List Write) :=
  let idx := selfIndices bs.length ns
  (List.zip idx.1 idx.2).mapM fun x =>
    match segs[x.1]?, segs[x.2]? with
    | some a, some b => some ⟨x.2, x.1, K (bs.all vertical) a b⟩
    | _, _ => none

/-- l. 216-228 for the borehole `i`: the segments from `i1` on are sources, those of the borehole are receivers. -/
def blockWrites (nB : ℕ) (ns : List ℕ) (segs : List Borehole) (i : ℕ) : List Write :=
  if i + 1 < nB then
    let b2 := (segs.drop (i0 ns i)).take (i1 ns i - i0 ns i)
    let b1 := segs.drop (i1 ns i)
    let v := b1.all vertical && b2.all vertical
    (b2.zipIdx.flatMap fun r => b1.zipIdx.map fun s => ⟨i0 ns i + r.2, i1 ns i + s.2, K v s.1 r.1⟩) ++
    (b1.zipIdx.flatMap fun s => b2.zipIdx.map fun r => ⟨i1 ns i + s.2, i0 ns i + r.2, K v s.1 r.1 * (r.1.H / s.1.H)⟩)
  else []

/-- `Detailed.thermal_response_factors` at one time. -/
def detailed (bs : List Borehole) (ns : List ℕ) (rs : List (List ℝ)) : Option (ℕ → ℕ → ℝ) :=
  let segs := segmentList bs ns rs
  match selfWrites K bs ns segs with
  | none => none
  | some w => some (fill (w ++ (List.range bs.length).flatMap (blockWrites K bs.length ns segs)) fun _ _ => 0)

end Verif.Sol
