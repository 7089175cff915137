import Mathlib.Data.Int.Log
import Mathlib.Algebra.Order.Archimedean.Real.Basic
import Mathlib.Algebra.Order.Field.Power
import Mathlib.Algebra.Ring.Int.Parity
import Mathlib.Data.List.Perm.Basic
import Verif.Tac

/-!
# Model of floating-point arithmetic

The models of the other files compute with exact numbers.  Here a computed `+`, `-`, `*`, `/` (or fused multiply-add) is the exact result followed by a rounding `fl`, as IEEE 754
prescribes for Python floats and numpy arrays of `float64`.

Simplification: no overflow (the exponent is not bounded above), no infinities or NaN.
-/

noncomputable section

namespace Verif.Num

/-- A rounding with unit roundoff `u` and absolute error `η` of underflow. -/
structure Rounding (u η : ℝ) (fl : ℝ → ℝ) : Prop where
  u_nonneg : 0 ≤ u
  η_nonneg : 0 ≤ η
  err : ∀ x, |fl x - x| ≤ u * |x| + η
  idem : ∀ x, fl (fl x) = fl x
  nat : ∀ n : ℕ, n * u ≤ 1 → fl n = n

/-- A number of the format. -/
def IsFloat (fl : ℝ → ℝ) (x : ℝ) : Prop := fl x = x

/-- The nearest integer, an even one in the middle between two. -/
def nearestEven (x : ℝ) : ℤ := if x - ⌊x⌋ < 1 / 2 then ⌊x⌋ else if 1 / 2 < x - ⌊x⌋ then ⌊x⌋ + 1 else if Even ⌊x⌋ then ⌊x⌋ else ⌊x⌋ + 1

/-- Exponent of the last digit of the numbers next to `x`. -/
def lastDigit (x : ℝ) : ℤ := max (Int.log 2 |x| - 52) (-1074)

/-- Rounding to `binary64`: 53 significant digits, nearest number, ties to even, gradual underflow. -/
def binary64 (x : ℝ) : ℝ := nearestEven (x / 2 ^ lastDigit x) * 2 ^ lastDigit x

/-- A computed sum of products, in any order, with or without fused multiply-add: `np.dot`, `@`, `np.einsum`, `np.sum`. -/
inductive Eval (fl : ℝ → ℝ) : List (ℝ × ℝ) → ℝ → Prop
  | nil : Eval fl [] 0
  | term (x y : ℝ) : Eval fl [(x, y)] (fl (x * y))
  | add {l m : List (ℝ × ℝ)} {a b : ℝ} : Eval fl l a → Eval fl m b → Eval fl (l ++ m) (fl (a + b))
  | fma {l : List (ℝ × ℝ)} {a : ℝ} (x y : ℝ) : Eval fl l a → Eval fl ((x, y) :: l) (fl (x * y + a))
  | perm {l m : List (ℝ × ℝ)} {a : ℝ} : l.Perm m → Eval fl l a → Eval fl m a

end Verif.Num
