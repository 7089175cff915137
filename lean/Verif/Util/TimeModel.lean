import Verif.Util.While
import Mathlib.Data.Rat.Floor
import Mathlib.Algebra.Order.Floor.Semiring
import Mathlib.Algebra.Order.Archimedean.Basic

/-!
# Model of the load aggregation time grids

Source: `/repo/pygfunction/utilities.py`, `time_ClaessonJaved` (l. 218-267) and
`time_MarcottePasquier` (l. 270-319).

Floats are elements of an ordered field `K`; the loops are modelled with the big-step
semantics `Verif.Loop`.  `cells_per_level` and `non_expanding_cells` are natural numbers.
-/

namespace Verif.Util

variable {K : Type*} [Field K] [LinearOrder K]

/-- Loop variables of `time_ClaessonJaved`: current time, cell count, time vector. -/
structure CJVars (K : Type*) where
  t : K
  i : ℕ
  time : List K

/-- l. 253-255. -/
def cjInit : CJVars K := ⟨0, 0, []⟩

/-- `while t < tmax` (l. 256). -/
def cjCond (tmax : K) (s : CJVars K) : Prop := s.t < tmax

/-- Loop body (l. 258-264): `v = ceil(i/cells_per_level)`, `width = 2.0**(v-1)`. -/
def cjBody (dt : K) (c : ℕ) (s : CJVars K) : CJVars K :=
  let i := s.i + 1
  let v := ⌈(i : ℚ) / (c : ℚ)⌉₊
  let width : K := 2 ^ (v - 1)
  let t := s.t + width * dt
  ⟨t, i, s.time ++ [t]⟩

/-- `time_ClaessonJaved(dt, tmax, c)` returns `time`. -/
def TimeClaessonJaved (dt tmax : K) (c : ℕ) (time : List K) : Prop :=
  ∃ s, Loop (cjCond tmax) (cjBody dt c) cjInit s ∧ s.time = time

/-- Loop variables of `time_MarcottePasquier`. -/
structure MPVars (K : Type*) where
  t : K
  i : ℕ
  width : K
  time : List K

/-- l. 305-308. -/
def mpInit : MPVars K := ⟨0, 0, 1, []⟩

/-- `while t < tmax` (l. 309). -/
def mpCond (tmax : K) (s : MPVars K) : Prop := s.t < tmax

/-- Loop body (l. 311-316). -/
def mpBody (dt : K) (n : ℕ) (s : MPVars K) : MPVars K :=
  let i := s.i + 1
  let width := if i > n then 2 * s.width else s.width
  let t := s.t + width * dt
  ⟨t, i, width, s.time ++ [t]⟩

/-- `time_MarcottePasquier(dt, tmax, n)` returns `time`. -/
def TimeMarcottePasquier (dt tmax : K) (n : ℕ) (time : List K) : Prop :=
  ∃ s, Loop (mpCond tmax) (mpBody dt n) mpInit s ∧ s.time = time

end Verif.Util
