import Verif.Tac
import Mathlib.Analysis.SpecialFunctions.Complex.Log
import Mathlib.LinearAlgebra.Matrix.NonsingularInverse

/-!
# Model of the multipole method and of the thermal resistances of a borehole cross-section

Models `pygfunction/pipes.py`: `thermal_resistances` without its memo (l. 2845-2973), `multipole` (l. 3338-3498), `_F_mk` (l. 3501-3554) and
`_BasePipe.local_borehole_thermal_resistance` (l. 731-732).

Simplifications: exact arithmetic; radii and resistances are arrays (the scalar case of l. 2914-2917, 3405-3408 is a constant array); `np.linalg.inv` is
the exact inverse and raises (`none`) on singular matrices.  `1.0/K` of a zero conductance is `0` here and `inf` in numpy: both divide a temperature
difference into a zero heat flow.
-/

noncomputable section

namespace Verif.Pipe.Pole

open ComplexConjugate

/-- Cross-section: pipe centres as complex numbers (l. 3403), outer radii, borehole radius, conductivities and fluid to pipe resistances. -/
structure Sec (n : ℕ) where
  z : Fin n → ℂ
  r : Fin n → ℝ
  rb : ℝ
  ks : ℝ
  kg : ℝ
  Rfp : Fin n → ℝ

variable {n J : ℕ}

/-- l. 3413. -/
def Sec.pikg (s : Sec n) : ℝ := 1 / (2 * Real.pi * s.kg)
/-- l. 3414 and l. 2925. -/
def Sec.sigma (s : Sec n) : ℝ := (s.kg - s.ks) / (s.kg + s.ks)
/-- l. 3415. -/
def Sec.beta (s : Sec n) (m : Fin n) : ℝ := 2 * Real.pi * s.kg * s.Rfp m

/-- `R0` (l. 3416-3421). -/
def Sec.R0 (s : Sec n) : Matrix (Fin n) (Fin n) ℝ := fun i j =>
  if i = j then
    s.pikg * (Real.log (s.rb / s.r i) + s.beta i + s.sigma * Real.log (s.rb ^ 2 / (s.rb ^ 2 - ‖s.z i‖ ^ 2)))
  else
    s.pikg * (Real.log (s.rb / ‖s.z i - s.z j‖) + s.sigma * Real.log (s.rb ^ 2 / ‖(s.rb : ℂ) ^ 2 - conj (s.z i) * s.z j‖))

/-- `_F_mk` (l. 3501-3554) for pipe `m` and order `k`. -/
def Sec.F (s : Sec n) (q : Fin n → ℝ) (P : Fin n → Fin J → ℂ) (m : Fin n) (k : Fin J) : ℂ :=
  (s.r m : ℂ) ^ (k.val + 1) * s.pikg / (k.val + 1) * (∑ i, if m = i then 0 else 1 / (-(s.z m - s.z i)) ^ (k.val + 1) * q i)
  + s.sigma * (s.r m : ℂ) ^ (k.val + 1) * s.pikg / (k.val + 1) *
      (∑ i, 1 / ((s.rb : ℂ) ^ 2 - s.z m * conj (s.z i)) ^ (k.val + 1) * (q i * conj (s.z i) ^ (k.val + 1)))
  + ∑ j : Fin J, (((j.val + k.val + 1).choose j.val : ℂ) * (-(s.r m : ℂ)) ^ (k.val + 1) *
      (∑ i, if m = i then 0 else 1 / (s.z m - s.z i) ^ (j.val + k.val + 2) * (P i j * (s.r i : ℂ) ^ (j.val + 1)))
    + ∑ p ∈ Finset.range (min k.val j.val + 2),
        s.sigma * ((j.val + 1).choose p : ℂ) * ((j.val + k.val + 1 - p).choose j.val : ℂ) * (s.r m : ℂ) ^ (k.val + 1) * s.z m ^ (j.val + 1 - p) *
        (∑ i, 1 / ((s.rb : ℂ) ^ 2 - s.z m * conj (s.z i)) ^ (k.val + j.val + 2 - p) *
          (conj (P i j) * (s.r i : ℂ) ^ (j.val + 1) * conj (s.z i) ^ (k.val + 1 - p))))

/-- l. 3431-3432. -/
def Sec.coeff (s : Sec n) (m : Fin n) (k : Fin J) : ℝ := -((1 - (k.val + 1) * s.beta m) / (1 + (k.val + 1) * s.beta m))

/-- l. 3437. -/
def Sec.next (s : Sec n) (q : Fin n → ℝ) (P : Fin n → Fin J → ℂ) : Fin n → Fin J → ℂ := fun m k => s.coeff m k * conj (s.F q P m k)

/-- l. 3440: `np.max(np.abs(..)) - np.min(np.abs(..))`. -/
def diff (P P' : Fin n → Fin J → ℂ) : ℝ := (⨆ x : Fin n × Fin J, ‖P' x.1 x.2 - P x.1 x.2‖) - ⨅ x : Fin n × Fin J, ‖P' x.1 x.2 - P x.1 x.2‖

/-- Loop variables: multipoles, iterations, `diff0` and `eps_max`. -/
structure Iter (n J : ℕ) where
  P : Fin n → Fin J → ℂ
  it : ℕ
  diff0 : ℝ
  err : ℝ

/-- One pass of the loop (l. 3434-3442). -/
def Sec.pass (s : Sec n) (q : Fin n → ℝ) (x : Iter n J) : Iter n J :=
  let P' := s.next q x.P
  let d := diff x.P P'
  let d0 := if x.it + 1 = 1 then d else x.diff0
  ⟨P', x.it + 1, d0, d / (d0 + 1 / 10 ^ 30)⟩

/-- `while eps_max > eps and it < it_max` with `it_max - it` passes left (l. 3433). -/
def Sec.iterate (s : Sec n) (q : Fin n → ℝ) (eps : ℝ) : ℕ → Iter n J → Iter n J
  | 0, x => x
  | k + 1, x => open Classical in if x.err > eps then s.iterate q eps k (s.pass q x) else x

/-- The multipoles (l. 3424-3444). -/
def Sec.poles (s : Sec n) (q : Fin n → ℝ) (J : ℕ) (eps : ℝ) (itMax : ℕ) : Iter n J :=
  if J > 0 then s.iterate q eps itMax ⟨fun _ _ => 0, 0, 0, 10 ^ 99⟩ else ⟨fun _ _ => 0, 0, 0, 10 ^ 99⟩

/-- Fluid temperatures (l. 3449-3457) for multipoles `P`. -/
def Sec.fluid (s : Sec n) (Tb : ℝ) (q : Fin n → ℝ) (P : Fin n → Fin J → ℂ) (m : Fin n) : ℝ :=
  Tb + (∑ i, s.R0 m i * q i)
  + ∑ j : Fin J, ((∑ i, if m = i then 0 else 1 / (s.z m - s.z i) ^ (j.val + 1) * (P i j * (s.r i : ℂ) ^ (j.val + 1)) : ℂ).re
    + s.sigma * (conj (s.z m) ^ (j.val + 1) *
        ∑ i, 1 / ((s.rb : ℂ) ^ 2 - conj (s.z m) * s.z i) ^ (j.val + 1) * (P i j * (s.r i : ℂ) ^ (j.val + 1)) : ℂ).re)

/-- Order 0 influence of pipe `i` at `w` (l. 3475-3482). -/
def Sec.W0 (s : Sec n) (w : ℂ) (i : Fin n) : ℂ :=
  if ‖w‖ ≤ s.rb then Complex.log (s.rb / (w - s.z i)) + s.sigma * Complex.log ((s.rb : ℂ) ^ 2 / ((s.rb : ℂ) ^ 2 - s.z i * conj w))
  else (1 + s.sigma) * Complex.log (s.rb / (w - s.z i)) + s.sigma * (1 + s.sigma) / (1 - s.sigma) * Complex.log (s.rb / w)

/-- Multipole influence (l. 3486-3493). -/
def Sec.WJ (s : Sec n) (w : ℂ) (i : Fin n) (j : ℕ) : ℂ :=
  if ‖w‖ ≤ s.rb then (s.r i / (w - s.z i)) ^ (j + 1) + s.sigma * ((s.r i * conj w) / ((s.rb : ℂ) ^ 2 - s.z i * conj w)) ^ (j + 1)
  else (1 + s.sigma) * (s.r i / (w - s.z i)) ^ (j + 1)

/-- Is the point inside pipe `i` (l. 3470)? -/
def Sec.inPipe (s : Sec n) (w : ℂ) (i : Fin n) : Bool := open Classical in decide (‖w - s.z i‖ / s.r i < 1)

/-- Requested temperature at `w` (l. 3464-3496): `break` at the first pipe that contains the point, `else` clause otherwise. -/
def Sec.field (s : Sec n) (Tb : ℝ) (q : Fin n → ℝ) (P : Fin n → Fin J → ℂ) (Tf : Fin n → ℝ) (w : ℂ) : ℝ :=
  match (List.finRange n).find? (s.inPipe w) with
  | some i => Tf i
  | none => Tb + (∑ i, q i * s.pikg * s.W0 w i + ∑ i, ∑ j : Fin J, P i j * s.WJ w i j).re

/-- `multipole` (l. 3338-3498): fluid temperatures, temperature field, iterations and error. -/
def Sec.multipole (s : Sec n) (Tb : ℝ) (q : Fin n → ℝ) (J : ℕ) (eps : ℝ) (itMax : ℕ) : (Fin n → ℝ) × (ℂ → ℝ) × ℕ × ℝ :=
  let x := s.poles q J eps itMax
  (s.fluid Tb q x.P, s.field Tb q x.P (s.fluid Tb q x.P), x.it, x.err)

/-- Line source approximation of `thermal_resistances` (l. 2925-2945). -/
def Sec.line (s : Sec n) : Matrix (Fin n) (Fin n) ℝ := fun i j =>
  if i = j then
    let r := √((s.z i).re ^ 2 + (s.z i).im ^ 2)
    s.Rfp i + 1 / (2 * Real.pi * s.kg) * (Real.log (s.rb / s.r i) - s.sigma * Real.log (1 - r ^ 2 / s.rb ^ 2))
  else
    let r := √(((s.z i).re - (s.z j).re) ^ 2 + ((s.z i).im - (s.z j).im) ^ 2)
    let ri := √((s.z i).re ^ 2 + (s.z i).im ^ 2)
    let rj := √((s.z j).re ^ 2 + (s.z j).im ^ 2)
    let dij := √((1 - ri ^ 2 / s.rb ^ 2) * (1 - rj ^ 2 / s.rb ^ 2) + r ^ 2 / s.rb ^ 2)
    (-1) / (2 * Real.pi * s.kg) * (Real.log (r / s.rb) + s.sigma * Real.log dij)

/-- Resistance matrix (l. 2922-2954); `multipole` has the defaults `eps=1e-5`, `it_max=100`, and a negative `J` is zero multipoles. -/
def Sec.resist (s : Sec n) (J : ℤ) : Matrix (Fin n) (Fin n) ℝ :=
  if J = 0 then s.line
  else Matrix.of fun i m => (s.multipole 0 (fun k => if k = m then 1 else 0) J.toNat (1 / 10 ^ 5) 100).1 i

/-- Conductances from `K = -np.linalg.inv(R)` (l. 2958-2960). -/
def conduct (K : Matrix (Fin n) (Fin n) ℝ) : Matrix (Fin n) (Fin n) ℝ := fun i j =>
  if i = j then -(K i i + ∑ l, if l = i then 0 else K i l) else K i j

/-- Elementwise `1.0/K` (l. 2961). -/
def recip (K : Matrix (Fin n) (Fin n) ℝ) : Matrix (Fin n) (Fin n) ℝ := fun i j => 1 / K i j

/-- Delta-circuit resistances (l. 2957-2961). -/
def delta (R : Matrix (Fin n) (Fin n) ℝ) : Option (Matrix (Fin n) (Fin n) ℝ) :=
  open Classical in if R.det = 0 then none else some (recip (conduct (-R⁻¹)))

/-- `local_borehole_thermal_resistance` (l. 731-732). -/
def local' (Rd : Matrix (Fin n) (Fin n) ℝ) : ℝ := 1 / ∑ i, 1 / Rd i i

/-- `thermal_resistances` without its memo. -/
def Sec.resistances (s : Sec n) (J : ℤ) : Option (Matrix (Fin n) (Fin n) ℝ × Matrix (Fin n) (Fin n) ℝ) :=
  (delta (s.resist J)).map fun Rd => (s.resist J, Rd)

end Verif.Pipe.Pole
