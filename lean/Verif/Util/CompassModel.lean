import Verif.Tac
import Mathlib.Analysis.SpecialFunctions.Trigonometric.Basic

/-!
# Model of the directions of the compass

Models `pygfunction/utilities.py`: `cardinal_point` (l. 9-22).

Simplifications: strings are lists of characters; `direction.upper()` is taken on each character, which is the same for ASCII characters (Python also maps a few other
letters to ASCII capitals).  Exact arithmetic.  The exception is `none`.
-/

noncomputable section

namespace Verif.Util

/-- `accepted_inputs` (l. 10-13). -/
def acceptedInputs : List (List Char) :=
  [['E'], ['E', 'N', 'E'], ['N', 'E'], ['N', 'N', 'E'],
   ['N'], ['N', 'N', 'W'], ['N', 'W'], ['W', 'N', 'W'],
   ['W'], ['W', 'S', 'W'], ['S', 'W'], ['S', 'S', 'W'],
   ['S'], ['S', 'S', 'E'], ['S', 'E'], ['E', 'S', 'E']]

/-- `direction.upper()` (l. 14). -/
def upper (s : List Char) : List Char := s.map Char.toUpper

/-- The dictionary `compass` (l. 19-21). -/
def compass : List (List Char × ℝ) := acceptedInputs.zipIdx.map fun p => (p.1, p.2 * Real.pi / 8)

/-- `cardinal_point` (l. 14-22). -/
def cardinalPoint (direction : List Char) : Option ℝ :=
  if upper direction ∈ acceptedInputs then List.lookup (upper direction) compass else none

end Verif.Util
