import Verif.LoadAgg.CJModel
import Verif.Num.FloatModel
import Verif.Util.TimeModel

/-!
# Model of `load_aggregation.ClaessonJaved` in floating-point arithmetic

Source: `/repo/pygfunction/load_aggregation.py`, class `ClaessonJaved` (l. 46-226), and `/repo/pygfunction/utilities.py`, `time_ClaessonJaved` (l. 218-267).

The same functions as in `CJModel` and `Util/TimeModel`, with every operation followed by the rounding `fl` (`Num/FloatModel`).  The order of the additions in `@` and `np.einsum` is not
specified by numpy, so the computed states are a relation.

Simplifications: no overflow; powers of two `2.0**(v-1)` are exact.
-/

noncomputable section

namespace Verif.LoadAgg.Rnd

open Num CJ

variable (fl : ℝ → ℝ) {S : Type*} {n : ℕ}

/-- Loop body of `time_ClaessonJaved` (l. 258-264): `v = np.ceil(i / cells_per_level)`, `width = 2.0**(v-1)`, `t += width*float(dt)`. -/
def cjBody (dt : ℝ) (c : ℕ) (s : Util.CJVars ℝ) : Util.CJVars ℝ :=
  let i := s.i + 1
  let v := ⌈fl ((i : ℝ) / (c : ℝ))⌉₊
  let width : ℝ := 2 ^ (v - 1)
  let t := fl (s.t + fl (width * dt))
  ⟨t, i, s.time ++ [t]⟩

/-- `time_ClaessonJaved(dt, tmax, c)` returns `time`. -/
def TimeClaessonJaved (dt tmax : ℝ) (c : ℕ) (time : List ℝ) : Prop :=
  ∃ s, Loop (Util.cjCond tmax) (cjBody fl dt c) Util.cjInit s ∧ s.time = time

/-- `_width` (l. 217-218): `hstack((1, (time[1:] - time[:-1])/dt))`. -/
def widths (dt : ℝ) (time : Fin (n + 1) → ℝ) : Fin (n + 1) → ℝ :=
  fun k => if h : k = 0 then 1 else fl (fl (time k - time (k.pred h).castSucc) / dt)

/-- `self.A` (l. 224-225). -/
def shiftMatrix (w : Fin (n + 1) → ℝ) : Matrix (Fin (n + 1)) (Fin (n + 1)) ℝ :=
  fun i j => fl (fl (fl (1 - fl (1 / w j)) * (if i = j then 1 else 0)) + (if i.val + 1 = j.val then fl (1 / w j) else 0))

/-- `next_time_step`: `self.q_b = self.q_b @ self.A` (l. 117). -/
def Next (w : Fin (n + 1) → ℝ) (q q' : Cells ℝ S n) : Prop :=
  ∀ s j, Eval fl (List.ofFn fun i => (q s i, shiftMatrix fl w i j)) (q' s j)

/-- States of an object after a sequence of calls. -/
inductive Run (w : Fin (n + 1) → ℝ) : List (Op ℝ S) → Cells ℝ S n → Prop
  | init : Run w [] initCells
  | next {ops : List (Op ℝ S)} {q q' : Cells ℝ S n} : Run w ops q → Next fl w q q' → Run w (ops ++ [.next]) q'
  | set {ops : List (Op ℝ S)} {q : Cells ℝ S n} (l : S → ℝ) : Run w ops q → Run w (ops ++ [.set l]) (setCurrentLoad q l)

/-- `initialize` (l. 103-105). -/
def increments (g : S → S → Fin (n + 1) → ℝ) : S → S → Fin (n + 1) → ℝ :=
  fun i j k => if h : k = 0 then g i j 0 else fl (g i j k - g i j (k.pred h).castSucc)

/-- `temporal_superposition` (l. 193): `y` is a possible result for source `i`. -/
def Superposed [Fintype S] (dg : S → S → Fin (n + 1) → ℝ) (q : Cells ℝ S n) (i : S) (y : ℝ) : Prop :=
  Eval fl ((Finset.univ : Finset (S × Fin (n + 1))).toList.map fun p => (dg i p.1 p.2, q p.1 p.2)) y

end Verif.LoadAgg.Rnd
