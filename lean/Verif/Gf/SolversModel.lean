import Verif.Gf.UniformModel
import Verif.Sol.EqModel

/-!
# Model of a g-function from start to end with the `similarities` and `equivalent` solvers

Models `pygfunction/solvers/_base_solver.py`: `solve` for `UHTR`, `UBWT` and `MIFT` (l. 224-453), `segment_lengths` (l. 463-478), with the response factors of
`pygfunction/solvers/similarities.py` (vertical boreholes) and of `pygfunction/solvers/equivalent.py` with its own `segment_lengths` (l. 439-447).

Simplifications: as in `Verif.Gf.UniformModel`; an exception is `none`.
-/

noncomputable section

namespace Verif.Gf

open Sol

open Classical in
/-- `solve` for `UHTR` with the segment lengths `len`, where `F t` are the response factors at the time `t` (row: receiving segment); `thr` is the threshold for linearization. -/
def uniformOf (len : List ℝ) (F : ℝ → Option (ℕ → ℕ → ℝ)) (time : List ℝ) (thr : ℝ) : Option (List ℝ) :=
  if ∀ t ∈ timeLong time thr, (F t).isSome then
    some (uhtr (fun i : Fin len.length => len[i]) (fun tl i j => tl.map fun t => ((F t).getD fun _ _ => 0) i j) time thr)
  else none

/-- `segment_lengths` of `_BaseSolver`. -/
def lengths (S : Sim) : List ℝ := (List.range S.N).flatMap fun k => (List.range (S.ns k)).map fun a => (S.seg k a).H

/-- The g-function with the `similarities` solver; `dist` are the distances and indices of the groups of pairs. -/
def uniformSimilarities (K : ℝ → FLS.Pair → ℝ) (S : Sim) (dist : List (ℕ × ℕ) → List ℝ × (ℕ → ℕ)) (time : List ℝ) (thr : ℝ) : Option (List ℝ) :=
  uniformOf (lengths S) (fun t => S.factors (K t) dist) time thr

/-- `segment_lengths` of `Equivalent`. -/
def lengthsEq (E : EqSol) : List ℝ := (List.range E.n).flatMap fun i => (List.range E.ns).map fun a => E.segLen i a

/-- The g-function with the `equivalent` solver. -/
def uniformEquivalent (KE : ℝ → FLS.Pair → List (ℝ × ℝ) → ℕ → ℝ) (K : ℝ → FLS.Pair → ℝ) (E : EqSol) (time : List ℝ) (thr : ℝ) : Option (List ℝ) :=
  uniformOf (lengthsEq E) (fun t => E.factors (KE t) (K t)) time thr

/-! ### Uniform temperature, mixed inlet temperature -/

open Classical in
/-- `solve` for `UBWT` with `n` segments of the lengths `len`, where `F t` are the response factors at the time `t`. -/
def temperatureOf (n : ℕ) (len : List ℝ) (F : ℝ → Option (ℕ → ℕ → ℝ)) (time : List ℝ) (thr : ℝ) : Option (List ℝ × List (Fin n → ℝ)) :=
  if ∀ t ∈ timeLong time thr, (F t).isSome then
    ubwt (fun i : Fin n => len.getD i 0) (fun tl i j => tl.map fun t => ((F t).getD fun _ _ => 0) i j) time thr
  else none

open Classical in
/-- `solve` for `MIFT` with one flow rate. -/
def mixedOf (n : ℕ) (len : List ℝ) (F : ℝ → Option (ℕ → ℕ → ℝ)) (f : Flow n) (time : List ℝ) (thr : ℝ) : Option (List ℝ × List (Fin n → ℝ) × (Fin n → List ℝ)) :=
  if ∀ t ∈ timeLong time thr, (F t).isSome then
    mift (fun i : Fin n => len.getD i 0) f (fun tl i j => tl.map fun t => ((F t).getD fun _ _ => 0) i j) time thr
  else none

/-- The g-function and heat extraction rates with a uniform temperature and the `similarities` solver, for `n` segments. -/
def temperatureSimilarities (K : ℝ → FLS.Pair → ℝ) (S : Sim) (dist : List (ℕ × ℕ) → List ℝ × (ℕ → ℕ)) (n : ℕ) (time : List ℝ) (thr : ℝ) : Option (List ℝ × List (Fin n → ℝ)) :=
  temperatureOf n (lengths S) (fun t => S.factors (K t) dist) time thr

/-- The g-function, heat extraction rates and temperatures with a mixed inlet temperature and the `similarities` solver, for `n` segments. -/
def mixedSimilarities (K : ℝ → FLS.Pair → ℝ) (S : Sim) (dist : List (ℕ × ℕ) → List ℝ × (ℕ → ℕ)) {n : ℕ} (f : Flow n) (time : List ℝ) (thr : ℝ) :
    Option (List ℝ × List (Fin n → ℝ) × (Fin n → List ℝ)) :=
  mixedOf n (lengths S) (fun t => S.factors (K t) dist) f time thr

/-- The g-function and heat extraction rates with a uniform temperature and the `equivalent` solver, for `n` segments. -/
def temperatureEquivalent (KE : ℝ → FLS.Pair → List (ℝ × ℝ) → ℕ → ℝ) (K : ℝ → FLS.Pair → ℝ) (E : EqSol) (n : ℕ) (time : List ℝ) (thr : ℝ) : Option (List ℝ × List (Fin n → ℝ)) :=
  temperatureOf n (lengthsEq E) (fun t => E.factors (KE t) (K t)) time thr

/-- The g-function, heat extraction rates and temperatures with a mixed inlet temperature and the `equivalent` solver, for `n` segments. -/
def mixedEquivalent (KE : ℝ → FLS.Pair → List (ℝ × ℝ) → ℕ → ℝ) (K : ℝ → FLS.Pair → ℝ) (E : EqSol) {n : ℕ} (f : Flow n) (time : List ℝ) (thr : ℝ) :
    Option (List ℝ × List (Fin n → ℝ) × (Fin n → List ℝ)) :=
  mixedOf n (lengthsEq E) (fun t => E.factors (KE t) (K t)) f time thr

end Verif.Gf
