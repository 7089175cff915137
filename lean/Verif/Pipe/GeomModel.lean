import Verif.Tac
import Mathlib.Analysis.SpecialFunctions.Pow.Real

/-!
# Model of the geometry checks of pipes

Models `pygfunction/pipes.py`: `_BasePipe._check_geometry` (l. 882-938) and `Coaxial._check_geometry` (l. 2717-2776).

Simplifications: numbers are real (no `nan`); `J` is an integer.
-/

noncomputable section

namespace Verif.Pipe.Geom

/-- The exceptions: `ValueError` with the message that names the input, or `IndexError` for missing positions. -/
inductive Err
  | ks | kg | Rff | Rfp | rIn | rOut | annulus | J
  | outside (i : ℕ)
  | overlap (i j : ℕ)
  | index
deriving DecidableEq

/-- Arguments of a U-tube. -/
structure UArgs where
  pos : List (ℝ × ℝ)
  rIn : ℝ
  rOut : ℝ
  rB : ℝ
  ks : ℝ
  kg : ℝ
  Rfp : ℝ
  J : ℤ
  nPipes : ℕ

/-- `np.sqrt(x**2 + y**2)`. -/
def radius (x y : ℝ) : ℝ := √(x ^ 2 + y ^ 2)

/-- `if not P: raise e`, then continue with `k`. -/
def need (P : Prop) (e : Err) (k : Except Err Unit) : Except Err Unit := open Classical in if P then k else .error e

/-- A loop that may raise. -/
def loop {α : Type*} (f : α → Except Err Unit) : List α → Except Err Unit
  | [] => .ok ()
  | x :: xs => match f x with
    | .ok () => loop f xs
    | .error e => .error e

/-- l. 921-926. -/
def insideOne (a : UArgs) (i : ℕ) : Except Err Unit :=
  match a.pos[i]? with
  | none => .error .index
  | some p => need (radius p.1 p.2 + a.rOut ≤ a.rB) (.outside i) (.ok ())

/-- l. 931-936. -/
def apartOne (a : UArgs) (ij : ℕ × ℕ) : Except Err Unit :=
  match a.pos[ij.1]?, a.pos[ij.2]? with
  | some p, some q => need (radius (p.1 - q.1) (p.2 - q.2) ≥ 2 * a.rOut) (.overlap ij.1 ij.2) (.ok ())
  | _, _ => .error .index

/-- Pairs of the nested loops (l. 929-930). -/
def pairs (N : ℕ) : List (ℕ × ℕ) := (List.range N).flatMap fun i => (List.range' (i + 1) (N - (i + 1))).map fun j => (i, j)

/-- `_BasePipe._check_geometry`. -/
def checkU (a : UArgs) : Except Err Unit :=
  need (a.ks > 0) .ks <| need (a.kg > 0) .kg <| need (a.Rfp > 0) .Rfp <| need (a.rIn > 0) .rIn <| need (a.rOut > a.rIn) .rOut <|
  need (a.J ≥ 0) .J <| match loop (insideOne a) (List.range (2 * a.nPipes)) with
    | .error e => .error e
    | .ok () => loop (apartOne a) (pairs (2 * a.nPipes))

/-- Arguments of a coaxial pipe; `rIn`, `rOut` are the arrays of two radii. -/
structure CArgs where
  pos : List (ℝ × ℝ)
  rIn : Fin 2 → ℝ
  rOut : Fin 2 → ℝ
  rB : ℝ
  ks : ℝ
  kg : ℝ
  Rff : ℝ
  Rfp : ℝ
  J : ℤ

/-- `r_out.argmin()`, `r_out.argmax()` (l. 2599-2600): the first of equal values. -/
def CArgs.iInner (a : CArgs) : Fin 2 := open Classical in if a.rOut 1 < a.rOut 0 then 1 else 0
def CArgs.iOuter (a : CArgs) : Fin 2 := open Classical in if a.rOut 1 > a.rOut 0 then 1 else 0

/-- Truth value `True` or `False` compared with `0.`. -/
def truth (b : Prop) : ℝ := open Classical in if b then 1 else 0

/-- l. 2767-2774; `np.any(np.greater_equal(self.b.r_b, radii))`. -/
def insideCoax (a : CArgs) (ip : ℕ × (ℝ × ℝ)) : Except Err Unit :=
  need (∃ j, a.rB ≥ radius ip.2.1 ip.2.2 + a.rOut j) (.outside ip.1) (.ok ())

/-- `Coaxial._check_geometry`; `np.all(x)` of a number is `x != 0`. -/
def checkC (a : CArgs) : Except Err Unit :=
  need (a.ks > 0) .ks <| need (a.kg > 0) .kg <| need (truth (a.Rff ≠ 0) ≥ 0) .Rff <| need (truth (a.Rfp ≠ 0) > 0) .Rfp <|
  need (truth (∀ j, a.rIn j ≠ 0) > 0) .rIn <| need (∀ j, a.rOut j > a.rIn j) .rOut <|
  need (a.rIn a.iOuter > a.rOut a.iInner) .annulus <| need (a.J ≥ 0) .J <|
  loop (insideCoax a) ((List.range a.pos.length).zip a.pos)

end Verif.Pipe.Geom
