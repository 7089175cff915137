import Verif.LoadAgg.CJModel
import Verif.LoadAgg.LiuModel
import Verif.LoadAgg.MLAAModel

/-!
# Model of the arrays given to and returned by the load aggregation schemes

Source: `/repo/pygfunction/load_aggregation.py`: `initialize` (l. 96-101, 289-291, 541-543), `set_current_load` (l. 167, 382-383, 630) and the last lines of `temporal_superposition`
(l. 193-196, 428, 672).  The numbers in the arrays are those of the models of the three schemes; this file adds the shapes.

Simplifications: an array is a shape and a value for every list of indices (indices outside of the shape are never used); numpy's rules for broadcasting and assignment are modelled for arrays of any
dimension.
-/

namespace Verif.LoadAgg

variable {K : Type*} [Field K] {n : ℕ}

/-- A numpy array, or a Python number (shape `()`). -/
structure Arr (K : Type*) where
  shape : List ℕ
  val : List ℕ → K

/-- Common length of two axes: equal, or one of them has length one. -/
def broadcastDim (a b : ℕ) : Option ℕ := if a = b then some a else if a = 1 then some b else if b = 1 then some a else none

/-- Common shape, last axis first. -/
def broadcastRev : List ℕ → List ℕ → Option (List ℕ)
  | [], l => some l
  | a :: x, [] => some (a :: x)
  | a :: x, b :: y => do
    let d ← broadcastDim a b
    let s ← broadcastRev x y
    return d :: s

/-- Common shape of two arrays; none when numpy raises `ValueError`. -/
def broadcast (x y : List ℕ) : Option (List ℕ) := (broadcastRev x.reverse y.reverse).map List.reverse

/-- The element of an array of the given shape that stands at position `ix` of the common shape. -/
def pick (shape ix : List ℕ) : List ℕ := (List.zipWith (fun d i => if d = 1 then 0 else i) shape.reverse ix.reverse).reverse

/-- `x - y`. -/
def Arr.sub (x y : Arr K) : Option (Arr K) := (broadcast x.shape y.shape).map fun s => ⟨s, fun ix => x.val (pick x.shape ix) - y.val (pick y.shape ix)⟩

/-- An elementwise function. -/
def Arr.map (f : K → K) (x : Arr K) : Arr K := ⟨x.shape, fun ix => f (x.val ix)⟩

/-- A one-dimensional array of per-source values. -/
def Arr.ofVec (v : Fin n → K) : Arr K := ⟨[n], fun ix => match ix with
  | i :: _ => if h : i < n then v ⟨i, h⟩ else 0
  | [] => 0⟩

/-- A number. -/
def Arr.ofNum (c : K) : Arr K := ⟨[], fun _ => c⟩

/-- Axes of length one are dropped from the left of an array with more axes than the target. -/
def dropLead : List ℕ → List ℕ
  | 1 :: d :: s => dropLead (d :: s)
  | s => s

/-- `array[:,k] = x` for an array with `n` rows (l. 167, 382-383, 630): the values stored, or none when numpy raises `ValueError`. -/
def Arr.store (n : ℕ) (x : Arr K) : Option (Fin n → K) :=
  let s := dropLead x.shape
  if broadcast s [n] = some [n] then some fun i => x.val (List.replicate (x.shape.length - s.length) 0 ++ pick s [i.val]) else none

/-- The dimensions of `g_d` accepted by the schemes: with one source the array is reshaped, `g_d.reshape(1, 1, -1)`, and all other uses are `g_d[:,:,k]`. -/
def accepts (nSources ndim : ℕ) : Prop := nSources = 1 ∨ ndim = 3

/-- The array returned by `ClaessonJaved.temporal_superposition` (l. 96-99, 193-196) with the values `v`: a number when `g_d` was one-dimensional (`deltaT.item()`), otherwise the result of
`np.einsum('ijk,jk', ...)`. -/
def cjArray (ndim : ℕ) (v : Fin n → K) : Arr K := if ndim = 1 then Arr.ofNum ((Arr.ofVec v).val [0]) else Arr.ofVec v

/-- The array returned by `MLAA.temporal_superposition` (l. 428): `np.reshape(deltaT, (self.nSources, 1))`. -/
def mlaaArray (v : Fin n → K) : Arr K := ⟨[n, 1], (Arr.ofVec v).val⟩

/-- The array returned by `Liu.temporal_superposition` (l. 672): a sum of products `matrix.dot(vector)`. -/
def liuArray (v : Fin n → K) : Arr K := Arr.ofVec v

/-- `ClaessonJaved`: cells after `next_time_step` and `set_current_load(x)`, and the array returned by `temporal_superposition`. -/
def cjSet {m : ℕ} (q : CJ.Cells K (Fin n) m) (x : Arr K) : Option (CJ.Cells K (Fin n) m) := (x.store n).map (CJ.setCurrentLoad q)

def cjOut {m : ℕ} (ndim : ℕ) (dg : Fin n → Fin n → Fin (m + 1) → K) (q : CJ.Cells K (Fin n) m) : Arr K := cjArray ndim (CJ.temporalSuperposition dg q)

/-- `MLAA`: `set_current_load(x)` and `temporal_superposition()`. -/
def mlaaSet (P : MLAA.Params) (σ : MLAA.State K (Fin n)) (x : Arr K) : Option (MLAA.State K (Fin n)) := (x.store n).map (MLAA.setCurrentLoad P σ)

def mlaaOut (P : MLAA.Params) (G : Fin n → Fin n → ℕ → K) (σ : MLAA.State K (Fin n)) : Option (Arr K) := (MLAA.temporalSuperposition P G σ).map mlaaArray

/-- `Liu`: `set_current_load(x)` and `temporal_superposition()`. -/
def liuSet (σ : Liu.State K (Fin n)) (x : Arr K) : Option (Liu.State K (Fin n)) := (x.store n).map (Liu.setCurrentLoad σ)

def liuOut (P : Liu.Params) (Ng : ℕ) (G : Fin n → Fin n → ℕ → K) (σ : Liu.State K (Fin n)) : Arr K := liuArray (Liu.temporalSuperposition P Ng G σ)

end Verif.LoadAgg
