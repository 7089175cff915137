import Verif.Sol.HistModel
import Mathlib.LinearAlgebra.Matrix.NonsingularInverse
import Mathlib.Data.Matrix.Block

/-!
# Model of the solution for the three boundary conditions

Models `pygfunction/solvers/_base_solver.py`: `solve` (l. 224-461).

The heat sources are indexed by `Fin n`; `H` are the segment lengths returned by `segment_lengths`.  `resp times i j` are the response factors
`h_ij.y[i, j, 1:]` that `thermal_response_factors(times, alpha)` returns, for increasing times; the value at time zero is zero.  `kind='linear'`.

Simplifications: exact arithmetic.  `np.searchsorted` is the length of the longest prefix of times not above the threshold, which is the same for sorted times.
The coefficients of the network (`a_in`, `a_b`), the resistance of the field and the conductivity of the ground are parameters for `MIFT`.
-/

noncomputable section

namespace Verif.Sol

open Matrix

/-- All values, or the first exception. -/
def allSome {ι α : Type*} (f : ι → Option α) : Option (ι → α) :=
  open Classical in if h : ∀ i, (f i).isSome then some fun i => (f i).get (h i) else none

/-- `np.linalg.solve(A, B)`; raises for a singular matrix. -/
def linsolve {ι : Type*} [Fintype ι] [DecidableEq ι] (A : Matrix ι ι ℝ) (B : ι → ℝ) : Option (ι → ℝ) :=
  open Classical in if IsUnit A.det then some (A⁻¹ *ᵥ B) else none

/-- l. 228-231. -/
def threshold (linear : Option ℝ) (rbMax alpha : ℝ) : ℝ :=
  match linear with
  | none => rbMax ^ 2 / (25 * alpha)
  | some x => x

/-- `p_long` (l. 233). -/
def pLong (time : List ℝ) (thr : ℝ) : ℕ := (time.takeWhile fun t => decide (t ≤ thr)).length

/-- `time_long` (l. 234-237). -/
def timeLong (time : List ℝ) (thr : ℝ) : List ℝ :=
  if pLong time thr > 0 then thr :: time.drop (pLong time thr) else time

variable {n : ℕ}

/-- Linearization of one series of values for times under the threshold, for `gFunc` and `T_b` (l. 275-277, 331, 333): values at `time_long` on input, at `time` on output. -/
def linearize (time : List ℝ) (thr : ℝ) (x : List ℝ) : List ℝ :=
  if pLong time thr > 0 then ((time.take (pLong time thr)).map fun t => x.headD 0 * t / thr) ++ x.tail else x

/-- The same for `Q_b` (l. 332). -/
def linearizeQ (time : List ℝ) (thr : ℝ) (x : List (Fin n → ℝ)) : List (Fin n → ℝ) :=
  if pLong time thr > 0 then ((time.take (pLong time thr)).map fun t i => 1 + (x.headD 0 i - 1) * t / thr) ++ x.tail else x

/-- `h_ij(dt)` (l. 235-236 of `detailed.py`): interpolation between the response factors, from zero at time zero. -/
def respAt (times : List ℝ) (y : Fin n → Fin n → List ℝ) (dt : ℝ) : Option (Matrix (Fin n) (Fin n) ℝ) :=
  allSome fun i => allSome fun j => interp (List.zip (0 :: times) (0 :: y i j)) dt

/-! ### Uniform heat extraction rate -/

/-- Temperatures `T_b[:, p]` (l. 269). -/
def uhtrT (y : Fin n → Fin n → List ℝ) (p : ℕ) (i : Fin n) : ℝ := ∑ j, (y i j).getD p 0

/-- `gFunc[p]` (l. 272). -/
def uhtrG (H : Fin n → ℝ) (y : Fin n → Fin n → List ℝ) (p : ℕ) : ℝ := (∑ i, uhtrT y p i * H i) / ∑ i, H i

/-- `solve` for `UHTR` (l. 251-277). -/
def uhtr (H : Fin n → ℝ) (resp : List ℝ → Fin n → Fin n → List ℝ) (time : List ℝ) (thr : ℝ) : List ℝ :=
  let tl := timeLong time thr
  linearize time thr ((List.range tl.length).map (uhtrG H (resp tl)))

/-! ### The common part of `UBWT` and `MIFT` -/

/-- `h_dt` and `T_b0` at step `p` (l. 290-302, 362-374), where `past` are the heat extraction rates of the previous steps; the column of the current step is zero. -/
def stepData (tl : List ℝ) (y : Fin n → Fin n → List ℝ) (past : List (Fin n → ℝ)) (p : ℕ) : Option (Matrix (Fin n) (Fin n) ℝ × (Fin n → ℝ)) :=
  match respAt tl y ((diffs tl).getD p 0), allSome fun j => reconstruct (tl.take (p + 1)) (past.map (fun Q => Q j) ++ [0]) with
  | some h, some R =>
    match allSome (superpose y R) with
    | some T0 => some (h, T0)
    | none => none
  | _, _ => none

/-! ### Uniform borehole wall temperature -/

/-- l. 317-319. -/
def ubwtA (H : Fin n → ℝ) (h : Matrix (Fin n) (Fin n) ℝ) : Matrix (Fin n ⊕ Unit) (Fin n ⊕ Unit) ℝ :=
  fromBlocks h (of fun _ _ => -1) (of fun _ j => H j) 0

/-- One step (l. 288-327): heat extraction rates and wall temperature. -/
def ubwtStep (H : Fin n → ℝ) (tl : List ℝ) (y : Fin n → Fin n → List ℝ) (past : List (Fin n → ℝ)) (p : ℕ) : Option ((Fin n → ℝ) × ℝ) :=
  match stepData tl y past p with
  | none => none
  | some (h, T0) =>
    match linsolve (ubwtA H h) (Sum.elim (fun i => -T0 i) fun _ => ∑ i, H i) with
    | none => none
    | some X => some (fun i => X (.inl i), X (.inr ()))

/-- The first `p` steps. -/
def ubwtLoop (H : Fin n → ℝ) (tl : List ℝ) (y : Fin n → Fin n → List ℝ) : ℕ → Option (List ((Fin n → ℝ) × ℝ))
  | 0 => some []
  | p + 1 =>
    match ubwtLoop H tl y p with
    | none => none
    | some l =>
      match ubwtStep H tl y (l.map Prod.fst) p with
      | none => none
      | some x => some (l ++ [x])

/-- `solve` for `UBWT` (l. 279-333): g-function and heat extraction rates. -/
def ubwt (H : Fin n → ℝ) (resp : List ℝ → Fin n → Fin n → List ℝ) (time : List ℝ) (thr : ℝ) : Option (List ℝ × List (Fin n → ℝ)) :=
  let tl := timeLong time thr
  match ubwtLoop H tl (resp tl) tl.length with
  | none => none
  | some l => some (linearize time thr (l.map Prod.snd), linearizeQ time thr (l.map Prod.fst))

/-! ### Mixed inlet fluid temperature -/

/-- The fluid and the network at one flow rate: coefficients of the heat extraction rates, `np.sum(np.abs(m_flow)*cp_f)`, resistance of the field, conductivity of the
ground, and the lengths `Hb_individual` of the segments of one borehole. -/
structure Flow (n : ℕ) where
  aIn : Fin n → ℝ
  aB : Matrix (Fin n) (Fin n) ℝ
  mcp : ℝ
  R : ℝ
  ks : ℝ
  Hb : Fin n → ℝ

/-- l. 391-398. -/
def miftA (H : Fin n → ℝ) (f : Flow n) (h : Matrix (Fin n) (Fin n) ℝ) : Matrix (Fin n ⊕ (Fin n ⊕ Unit)) (Fin n ⊕ (Fin n ⊕ Unit)) ℝ :=
  fromBlocks h (of fun i => Sum.elim (fun j => -(1 : Matrix (Fin n) (Fin n) ℝ) i j) fun _ => 0)
    (of (Sum.elim (fun i j => (1 : Matrix (Fin n) (Fin n) ℝ) i j) fun _ j => H j))
    (of (Sum.elim (fun i => Sum.elim (fun j => f.aB i j / (2 * Real.pi * f.ks * f.Hb i)) fun _ => f.aIn i / (2 * Real.pi * f.ks * f.Hb i)) fun _ => 0))

/-- State after a step: heat extraction rates, wall temperatures, inlet fluid temperature and value of the g-function. -/
structure MiftState (n : ℕ) where
  Q : Fin n → ℝ
  T : Fin n → ℝ
  Tin : ℝ
  g : ℝ

/-- Effective wall temperature from the inlet fluid temperature (l. 413-422, 437-443). -/
def effective (Htot : ℝ) (f : Flow n) (Tin : ℝ) : ℝ :=
  let Tout := Tin - 2 * Real.pi * f.ks * Htot / f.mcp
  0.5 * (Tin + Tout) - 2 * Real.pi * f.ks * f.R

/-- One step (l. 360-422). -/
def miftStep (H : Fin n → ℝ) (f : Flow n) (tl : List ℝ) (y : Fin n → Fin n → List ℝ) (past : List (Fin n → ℝ)) (p : ℕ) : Option (MiftState n) :=
  match stepData tl y past p with
  | none => none
  | some (h, T0) =>
    match linsolve (miftA H f h) (Sum.elim (fun i => -T0 i) (Sum.elim (fun _ => 0) fun _ => ∑ i, H i)) with
    | none => none
    | some X => some ⟨fun i => X (.inl i), fun i => X (.inr (.inl i)), X (.inr (.inr ())), effective (∑ i, H i) f (X (.inr (.inr ())))⟩

def miftLoop (H : Fin n → ℝ) (f : Flow n) (tl : List ℝ) (y : Fin n → Fin n → List ℝ) : ℕ → Option (List (MiftState n))
  | 0 => some []
  | p + 1 =>
    match miftLoop H f tl y p with
    | none => none
    | some l =>
      match miftStep H f tl y (l.map MiftState.Q) p with
      | none => none
      | some x => some (l ++ [x])

/-- `solve` for `MIFT` with one flow rate (`nMassFlow == 0`; l. 335-453): g-function, heat extraction rates, wall temperatures. -/
def mift (H : Fin n → ℝ) (f : Flow n) (resp : List ℝ → Fin n → Fin n → List ℝ) (time : List ℝ) (thr : ℝ) :
    Option (List ℝ × List (Fin n → ℝ) × (Fin n → List ℝ)) :=
  let tl := timeLong time thr
  match miftLoop H f tl (resp tl) tl.length with
  | none => none
  | some l => some (linearize time thr (l.map MiftState.g), linearizeQ time thr (l.map MiftState.Q), fun i => linearize time thr (l.map fun x => x.T i))

/-- The g-function for the flow rate `i` from the wall temperatures obtained with another flow rate (l. 428-443); `aIn`, `aB` are the coefficients of the heat extraction
rate of the network at the flow rate `i`. -/
def crossG (Htot : ℝ) (f : Flow n) (aIn : ℝ) (aB : Fin n → ℝ) (T : Fin n → ℝ) : ℝ :=
  effective Htot f ((-2 * Real.pi * f.ks * Htot - ∑ j, aB j * T j) / aIn)

/-- Linearization for several flow rates (l. 447): numpy evaluates `gFunc[:,:,p_long-1] * self.time[:p_long]`, an `m × m` array times an array of length `k = p_long`, and
assigns it to an array of shape `m × m × k`.  For `m = k` both broadcasts align the last axes; for `m = 1` the product has the shape `1 × k`; for `k = 1` the product is
`m × m`, which cannot be assigned to `m × m × 1`; otherwise the product raises.  `G i j` is `gFunc[i, j, p_long-1]`; the result at `i j p`; `none` when numpy raises. -/
def linearizeMany (m k : ℕ) (G : Fin m → Fin m → ℝ) (time : Fin k → ℝ) (thr : ℝ) : Option (Fin m → Fin m → Fin k → ℝ) :=
  if h : m = k then some fun _ j p => G j (Fin.cast h.symm p) * time p / thr
  else if h : m = 1 then some fun _ _ p => G ⟨0, by omega⟩ ⟨0, by omega⟩ * time p / thr
  else none

end Verif.Sol
