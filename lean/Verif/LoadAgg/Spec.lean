import Mathlib.Algebra.BigOperators.Group.Finset.Basic
import Mathlib.Algebra.BigOperators.Ring.Finset
import Mathlib.Algebra.Field.Defs

/-!
# Temporal superposition and block averaging (specification)

`superpose G h` is the textbook temporal superposition (Duhamel sum) of a load history
`h` (latest time step first) with a step response `G`, where `G k` is the response
`k+1` time steps after a unit step: every change of load `h[k] - h[k+1]` (with zero load
before the first step) acts with `G k`.

`averaged sizes h` replaces the loads of consecutive blocks of the history by their mean.
-/

namespace Verif.LoadAgg

open Finset

/-- Exact temporal superposition of the load history `h` (latest step first). -/
def superpose {K : Type*} [CommRing K] (G : ℕ → K) (h : List K) : K :=
  ∑ k ∈ range h.length, (h.getD k 0 - h.getD (k + 1) 0) * G k

/-- Arithmetic mean of a list. -/
def mean {K : Type*} [Field K] (l : List K) : K := l.sum / (l.length : K)

/-- The history in which each of the consecutive blocks with the given sizes is replaced
by its mean; what is left after the last block is unchanged. -/
def averaged {K : Type*} [Field K] : List ℕ → List K → List K
  | [], h => h
  | b :: bs, h => List.replicate b (mean (h.take b)) ++ averaged bs (h.drop b)

end Verif.LoadAgg
