import Verif.Pipe.PoleModel

/-!
# Model of the memo of `thermal_resistances`

Models `pygfunction/pipes.py`: `_thermal_resistances_dict` (l. 2782-2784), `_compare_thermal_resistances_inputs` (l. 2787-2842) and the handling of the memo
in `thermal_resistances` (l. 2910-2920, 2963-2973).  Python objects that the caller and the memo share are cells of a memory: position lists, arrays of radii
or resistances, and returned arrays.  The computation of the resistances (l. 2922-2961) is a parameter `comp`; `borehole` below is the one of the code.

Simplifications: exact arithmetic; the pair of returned arrays is one cell; positions are lists of pairs (tuples cannot be modified in place, their list can).
-/

noncomputable section

namespace Verif.Pipe.Memo

/-- Shared objects: position lists, arrays, returned values (and the number of returned values allocated so far). -/
structure Mem (V : Type) where
  pos : ℕ → List (ℝ × ℝ)
  arr : ℕ → List ℝ
  out : ℕ → V
  nOut : ℕ

/-- An array that nobody else holds, or a shared one. -/
inductive Arr
  | own (l : List ℝ)
  | ref (r : ℕ)

/-- Content of an array. -/
def Arr.read {V : Type} (M : Mem V) : Arr → List ℝ
  | .own l => l
  | .ref r => M.arr r

/-- `r_out` and `R_fp` are scalars or arrays. -/
inductive Arg
  | scalar (x : ℝ)
  | array (r : ℕ)

/-- l. 2914-2917. -/
def Arg.toArr (n : ℕ) : Arg → Arr
  | .scalar x => .own (List.replicate n x)
  | .array r => .ref r

/-- Arguments of a call (`pos`, and arrays, are references). -/
structure Call where
  pos : ℕ
  rOut : Arg
  rb : ℝ
  ks : ℝ
  kg : ℝ
  Rfp : Arg
  J : ℤ

/-- Arguments by value. -/
structure Vals where
  pos : List (ℝ × ℝ)
  rOut : List ℝ
  rb : ℝ
  ks : ℝ
  kg : ℝ
  Rfp : List ℝ
  J : ℤ

/-- The memo after its first assignment (l. 2964-2972): references, not copies. -/
structure Saved where
  pos : ℕ
  rOut : Arr
  rb : ℝ
  ks : ℝ
  kg : ℝ
  Rfp : Arr
  J : ℤ
  out : ℕ

variable {V : Type}

/-- Arguments of a call by value, after l. 2914-2917. -/
def Call.vals (M : Mem V) (c : Call) : Vals :=
  ⟨M.pos c.pos, (c.rOut.toArr (M.pos c.pos).length).read M, c.rb, c.ks, c.kg, (c.Rfp.toArr (M.pos c.pos).length).read M, c.J⟩

/-- What the memo holds now. -/
def Saved.vals (M : Mem V) (s : Saved) : Vals := ⟨M.pos s.pos, s.rOut.read M, s.rb, s.ks, s.kg, s.Rfp.read M, s.J⟩

/-- `np.allclose(a, b, rtol)`, with the default `atol=1e-8`. -/
def allclose (rtol : ℝ) (a b : List ℝ) : Prop := ∀ x ∈ a.zip b, |x.1 - x.2| ≤ 1 / 10 ^ 8 + rtol * |x.2|

/-- `_compare_thermal_resistances_inputs` (l. 2823-2842) with `tol=1e-6`; the tests on `None` (l. 2820-2822) are in `call`. -/
def compare (v w : Vals) : Prop :=
  (v.pos.length = w.pos.length ∧ v.rOut.length = w.rOut.length ∧ v.Rfp.length = w.Rfp.length) ∧
  (allclose (1 / 10 ^ 6) v.rOut w.rOut ∧ |v.rb - w.rb| / v.rb < 1 / 10 ^ 6 ∧ |v.ks - w.ks| / v.ks < 1 / 10 ^ 6 ∧ |v.kg - w.kg| / v.kg < 1 / 10 ^ 6 ∧
    allclose (1 / 10 ^ 5) v.Rfp w.Rfp ∧ v.J = w.J) ∧
  ∀ x ∈ v.pos.zip w.pos, ¬ (|x.1.1 - x.2.1| > |x.1.1 * (1 / 10 ^ 6)| ∨ |x.1.2 - x.2.2| > |x.1.2 * (1 / 10 ^ 6)|)

/-- State of the program: memory and module level dictionary. -/
structure St (V : Type) where
  mem : Mem V
  memo : Option Saved

/-- Is the memo used (l. 2919)? -/
def hit (σ : St V) (c : Call) : Option Saved :=
  open Classical in match σ.memo with
  | none => none
  | some s => if compare (c.vals σ.mem) (s.vals σ.mem) then some s else none

/-- Compute, allocate and save (l. 2922-2973); `none` when the computation raises. -/
def miss (comp : Vals → Option V) (σ : St V) (c : Call) : St V × Option ℕ :=
  match comp (c.vals σ.mem) with
  | none => (σ, none)
  | some v =>
    (⟨{ σ.mem with out := Function.update σ.mem.out σ.mem.nOut v, nOut := σ.mem.nOut + 1 },
      some ⟨c.pos, c.rOut.toArr (σ.mem.pos c.pos).length, c.rb, c.ks, c.kg, c.Rfp.toArr (σ.mem.pos c.pos).length, c.J, σ.mem.nOut⟩⟩, some σ.mem.nOut)

/-- `thermal_resistances`: new state and reference to the result. -/
def call (comp : Vals → Option V) (σ : St V) (c : Call) : St V × Option ℕ :=
  match hit σ c with
  | some s => (σ, some s.out)
  | none => miss comp σ c

/-- What a program does: calls, and modifications in place of objects. -/
inductive Op (V : Type)
  | call (c : Call)
  | setPos (r : ℕ) (l : List (ℝ × ℝ))
  | setArr (r : ℕ) (l : List ℝ)
  | setOut (r : ℕ) (v : V)

/-- One operation. -/
def step (comp : Vals → Option V) (σ : St V) : Op V → St V
  | .call c => (call comp σ c).1
  | .setPos r l => { σ with mem := { σ.mem with pos := Function.update σ.mem.pos r l } }
  | .setArr r l => { σ with mem := { σ.mem with arr := Function.update σ.mem.arr r l } }
  | .setOut r v => { σ with mem := { σ.mem with out := Function.update σ.mem.out r v } }

/-- A program from a state. -/
def run (comp : Vals → Option V) (σ : St V) (ops : List (Op V)) : St V := ops.foldl (step comp) σ

/-- What a call made now returns: the content of the returned arrays, or `none` when it raises. -/
def result (comp : Vals → Option V) (σ : St V) (c : Call) : Option V := (call comp σ c).2.map (call comp σ c).1.mem.out

/-- The computation of the code (l. 2910-2961), for as many radii and resistances as pipes; other lengths raise. -/
def borehole (v : Vals) : Option (List (List ℝ) × List (List ℝ)) :=
  if h : v.rOut.length = v.pos.length ∧ v.Rfp.length = v.pos.length then
    ((⟨fun i => ⟨(v.pos.get i).1, (v.pos.get i).2⟩, fun i => v.rOut.get (i.cast h.1.symm), v.rb, v.ks, v.kg, fun i => v.Rfp.get (i.cast h.2.symm)⟩ :
      Pole.Sec v.pos.length).resistances v.J).map fun R => (List.ofFn fun i => List.ofFn fun j => R.1 i j, List.ofFn fun i => List.ofFn fun j => R.2 i j)
  else none

end Verif.Pipe.Memo
