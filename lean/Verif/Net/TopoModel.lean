import Verif.Tac

/-!
# Model of the construction of `networks.Network` (topology)

Models `pygfunction/networks.py`, `Network.__init__` (l. 84-105), `_verify_bore_connectivity`
(l. 1371-1404), `_find_inlets_outlets` (l. 1298-1338) and `_path_to_inlet` (l. 1341-1368).

Python lists of integers are `List ℤ`.  Indexing follows Python: a negative index counts from
the end and an index out of range raises `IndexError`.
-/

namespace Verif.Net

/-- Outcomes other than normal return.  `fuel` is not a Python exception: it marks that a
`while` loop of the model was cut; `TopoProps` proves it never occurs. -/
inductive Err where
  | value
  | index
  | fuel
  deriving DecidableEq

/-- Python `c[i]` on a list of integers. -/
def pyGet (c : List ℤ) (i : ℤ) : Except Err ℤ :=
  if 0 ≤ i then
    match c[i.toNat]? with
    | some v => .ok v
    | none => .error .index
  else if -(c.length : ℤ) ≤ i then
    match c[(c.length + i).toNat]? with
    | some v => .ok v
    | none => .error .index
  else .error .index

/-- `networks.py` l. 1397-1403: the inner `while` loop of `_verify_bore_connectivity`.  `fuel` is
`nBoreholes - n` where `n` is the step counter of the code; the check `n > nBoreholes`
after the increment is `fuel = 0`. -/
def walk (c : List ℤ) : ℕ → ℤ → Except Err Unit
  | fuel, i =>
    if i = -1 then .ok ()
    else
      match pyGet c i, fuel with
      | .error e, _ => .error e
      | .ok _, 0 => .error .value
      | .ok j, fuel + 1 => walk c fuel j

/-- `networks.py` l. 1390-1403: the `for` loop of `_verify_bore_connectivity` over a suffix `l` of
the connectivity list `c`. -/
def verifyLoop (n : ℕ) (c : List ℤ) : List ℤ → Except Err Unit
  | [] => .ok ()
  | i :: l =>
    if i ≠ -1 ∧ c.count i > 1 then .error .value
    else
      match walk c n i with
      | .error e => .error e
      | .ok _ => verifyLoop n c l

/-- Python `max(c)`: `none` stands for the `ValueError` on an empty list. -/
def pyMax : List ℤ → Option ℤ
  | [] => none
  | a :: l => some (l.foldl max a)

/-- `Network._verify_bore_connectivity` (l. 1371-1404). -/
def verify (n : ℕ) (c : List ℤ) : Except Err Unit :=
  if c.length ≠ n then .error .value
  else
    match pyMax c with
    | none => .error .value
    | some m => if m ≥ (n : ℤ) then .error .value else verifyLoop n c c

/-- `networks.py` l. 1362-1366: the `while` loop of `_path_to_inlet`; the path is accumulated at
the end of `path`. -/
def pathLoop (c : List ℤ) : ℕ → List ℤ → ℤ → Except Err (List ℤ)
  | fuel, path, i =>
    if i = -1 then .ok path
    else
      match fuel, pyGet c i with
      | 0, _ => .error .fuel
      | _ + 1, .error e => .error e
      | fuel + 1, .ok j => pathLoop c fuel (path ++ [i]) j

/-- `Network._path_to_inlet` (l. 1341-1368), at most `fuel` iterations of its loop. -/
def pathToInlet (c : List ℤ) (fuel : ℕ) (i : ℕ) : Except Err (List ℤ) :=
  match pyGet c i with
  | .error e => .error e
  | .ok j => pathLoop c fuel [(i : ℤ)] j

/-- Indices of the network inlets (l. 1317). -/
def inletList (n : ℕ) (c : List ℤ) : List ℕ := (List.range n).filter fun i => c[i]? = some (-1)

/-- Indices of the network outlets (l. 1319). -/
def outletList (n : ℕ) (c : List ℤ) : List ℕ := (List.range n).filter fun i => (i : ℤ) ∉ c

/-- Python `l.index(a)` (l. 1321). -/
def pyIndex (l : List ℕ) (a : ℤ) : Except Err ℕ :=
  match l.findIdx? (fun b : ℕ => (b : ℤ) = a) with
  | some k => .ok k
  | none => .error .value

/-- `networks.py` l. 1321-1322: the circuit of borehole `i`. -/
def circuitOf (n : ℕ) (c : List ℤ) (i : ℕ) : Except Err ℕ :=
  match pathToInlet c n i with
  | .error e => .error e
  | .ok p =>
    match p.getLast? with
    | none => .error .index
    | some r => pyIndex (inletList n c) r

/-- The comprehension of l. 1321-1322 over a list of boreholes. -/
def circuits (n : ℕ) (c : List ℤ) : List ℕ → Except Err (List ℕ)
  | [] => .ok []
  | i :: l =>
    match circuitOf n c i with
    | .error e => .error e
    | .ok k =>
      match circuits n c l with
      | .error e => .error e
      | .ok ks => .ok (k :: ks)

/-- Attributes set by `_find_inlets_outlets` (l. 1327-1336). -/
structure Topology where
  n : ℕ
  c : List ℤ
  nInlets : ℕ
  nOutlets : ℕ
  iInlets : List ℕ
  iOutlets : List ℕ
  iCircuit : List ℕ

/-- `Network._find_inlets_outlets` (l. 1298-1338). -/
def findInletsOutlets (n : ℕ) (c : List ℤ) : Except Err Topology :=
  match circuits n c (List.range n) with
  | .error e => .error e
  | .ok circ =>
    if c.count (-1) ≠ (outletList n c).length then .error .value
    else .ok
      { n := n
        c := c
        nInlets := c.count (-1)
        nOutlets := (outletList n c).length
        iInlets := inletList n c
        iOutlets := outletList n c
        iCircuit := circ }

/-- `Network.__init__` (l. 84-105), topology only: `none` is the default
`bore_connectivity=None`, i.e. all boreholes in parallel. -/
def construct (n : ℕ) (conn : Option (List ℤ)) : Except Err Topology :=
  let c := conn.getD (List.replicate n (-1))
  match verify n c with
  | .error e => .error e
  | .ok _ => findInletsOutlets n c

end Verif.Net
