import Verif.Tac

/-!
# Model of `utilities.segment_ratios`

Source: `/repo/pygfunction/utilities.py`, l. 76-215.

Floats are elements of an ordered field `K`.  `roots` stands for the real roots returned by
`numpy.polynomial.Polynomial(coefs).roots()` (complex roots are skipped by the code, l. 163,
191).  Type checks of the arguments and warnings are not modelled.
-/

namespace Verif.Util

variable {K : Type*} [Field K] [LinearOrder K]

/-- The two ways the function raises. -/
inductive SegError where
  /-- `AssertionError`, l. 113-119 -/
  | assertion
  /-- `RuntimeError`, l. 173, 203 -/
  | runtime
  deriving DecidableEq

/-- Coefficients for an even number of segments (l. 154-158). -/
def evenCoefs (nz : ℕ) (r : K) : List K :=
  (((List.replicate (nz + 1) 0).set 0 (1 - 2 * r)).set 1 (-1)).set nz (2 * r)

/-- Coefficients for an odd number of segments (l. 182-187). -/
def oddCoefs (nz : ℕ) (r : K) : List K :=
  ((((List.replicate (nz + 2) 0).set 0 (1 - 2 * r)).set 1 (-1)).set nz r).set (nz + 1) r

/-- `dz = [factor**i * end_length_ratio for i in range(nz)]` (l. 165, 194). -/
def dz (nz : ℕ) (r x : K) : List K := (List.range nz).map fun i => x ^ i * r

/-- Acceptance test (l. 169-170, 199-200). -/
def accept (l : List K) : Bool :=
  decide (|1 - l.sum| < 1 / 10 ^ 6) && l.all fun v => decide (0 < v)

/-- `for x in roots: ... break  else: raise RuntimeError` (l. 162-176, 191-206). -/
def firstAccepted (f : K → List K) : List K → Except SegError (List K)
  | [] => .error .runtime
  | x :: xs => if accept (f x) then .ok (f x) else firstAccepted f xs

/-- `segment_ratios(nSegments, end_length_ratio)`. -/
def segmentRatios (roots : List K → List K) (n : ℤ) (r : K) : Except SegError (List K) :=
  if ¬ 1 ≤ n then .error .assertion
  else if ¬ (n ≤ 2 ∨ (0 < r ∧ r < 1 / 2)) then .error .assertion
  else if n = 1 then .ok [1]
  else if n = 2 then .ok [1 / 2, 1 / 2]
  else if n = 3 then .ok [r, 1 - 2 * r, r]
  else if |1 - (n : K) * r| < 1 / 10 ^ 6 then .ok (List.replicate n.toNat (1 / (n : K)))
  else if n % 2 = 0 then
    let nz := n.toNat / 2
    firstAccepted (fun x => dz nz r x ++ (dz nz r x).reverse) (roots (evenCoefs nz r))
  else
    let nz := (n.toNat - 1) / 2
    firstAccepted (fun x => dz nz r x ++ [x ^ nz * r] ++ (dz nz r x).reverse)
      (roots (oddCoefs nz r))

end Verif.Util
