import Verif.Sol.SolveModel

/-!
# Model of the option `kind` of the solvers

Models the use of `kind` in `interp1d(np.hstack((0., time)), h_ij, kind=self.kind, ...)` (`pygfunction/solvers/detailed.py` l. 235-236, `similarities.py` l. 294-296,
`equivalent.py` l. 307-309) and of its value `h_ij(dt)` in `solve` (`_base_solver.py` l. 290-292, 362-364).  `Verif.Sol.SolveModel` is the case `kind='linear'`.

Simplifications: as in `Verif.Sol.SolveModel`.  An interpolation is a number of points under which `interp1d` raises, and a value, which may be an exception.  Only three kinds
of scipy are written out (`'linear'`, `'previous'`, `'next'`); the theorems are for every kind which gives back its data, as those of scipy do.
-/

noncomputable section

namespace Verif.Sol

/-- A kind of interpolation: `interp1d(..., kind)` raises for fewer than `need` points (order + 1 for splines: 3 for `'quadratic'`, 4 for `'cubic'`); its value at `x`. -/
structure Kind where
  need : ℕ
  value : List (ℝ × ℝ) → ℝ → Option ℝ

/-- `kind='linear'`. -/
def Kind.linear : Kind := ⟨0, interp⟩

/-- The value at the last point which is not after `x`. -/
def previousGo (x : ℝ) : ℝ × ℝ → List (ℝ × ℝ) → ℝ
  | p, [] => p.2
  | p, q :: l => if q.1 ≤ x then previousGo x q l else p.2

/-- The value at the first point which is not before `x`. -/
def nextGo (x : ℝ) : ℝ × ℝ → List (ℝ × ℝ) → ℝ
  | p, [] => p.2
  | p, q :: l => if x ≤ p.1 then p.2 else nextGo x q l

/-- A value outside of the range raises. -/
def within (f : ℝ → ℝ × ℝ → List (ℝ × ℝ) → ℝ) (pts : List (ℝ × ℝ)) (x : ℝ) : Option ℝ :=
  match pts with
  | [] => none
  | p :: l => if p.1 ≤ x ∧ x ≤ (l.getLastD p).1 then some (f x p l) else none

/-- `kind='previous'`. -/
def Kind.previous : Kind := ⟨0, within previousGo⟩

/-- `kind='next'`. -/
def Kind.next : Kind := ⟨0, within nextGo⟩

/-- A kind which needs `m` points, otherwise as `K`. -/
def Kind.needing (m : ℕ) (K : Kind) : Kind := ⟨m, K.value⟩

variable {n : ℕ}

/-- `thermal_response_factors` makes the interpolation for all boundary conditions, with the points `np.hstack((0., time))`; it raises when they are too few. -/
def Kind.built (K : Kind) (tl : List ℝ) : Bool := decide (K.need ≤ tl.length + 1)

/-- `h_ij(dt)`. -/
def respAtKind (K : Kind) (times : List ℝ) (y : Fin n → Fin n → List ℝ) (dt : ℝ) : Option (Matrix (Fin n) (Fin n) ℝ) :=
  allSome fun i => allSome fun j => K.value (List.zip (0 :: times) (0 :: y i j)) dt

/-- `solve` for `UHTR` (l. 251-277): uses `h_ij.y` only. -/
def uhtrKind (K : Kind) (H : Fin n → ℝ) (resp : List ℝ → Fin n → Fin n → List ℝ) (time : List ℝ) (thr : ℝ) : Option (List ℝ) :=
  if K.built (timeLong time thr) then some (uhtr H resp time thr) else none

/-- `h_dt` and `T_b0` at step `p` (l. 290-302, 362-374); the temporal superposition uses `h_ij.y` only, and the reconstruction of the loads is always linear. -/
def stepDataKind (K : Kind) (tl : List ℝ) (y : Fin n → Fin n → List ℝ) (past : List (Fin n → ℝ)) (p : ℕ) : Option (Matrix (Fin n) (Fin n) ℝ × (Fin n → ℝ)) :=
  match respAtKind K tl y ((diffs tl).getD p 0), allSome fun j => reconstruct (tl.take (p + 1)) (past.map (fun Q => Q j) ++ [0]) with
  | some h, some R =>
    match allSome (superpose y R) with
    | some T0 => some (h, T0)
    | none => none
  | _, _ => none

/-- One step of `UBWT` (l. 288-327). -/
def ubwtStepKind (K : Kind) (H : Fin n → ℝ) (tl : List ℝ) (y : Fin n → Fin n → List ℝ) (past : List (Fin n → ℝ)) (p : ℕ) : Option ((Fin n → ℝ) × ℝ) :=
  match stepDataKind K tl y past p with
  | none => none
  | some (h, T0) =>
    match linsolve (ubwtA H h) (Sum.elim (fun i => -T0 i) fun _ => ∑ i, H i) with
    | none => none
    | some X => some (fun i => X (.inl i), X (.inr ()))

/-- The first `p` steps. -/
def ubwtLoopKind (K : Kind) (H : Fin n → ℝ) (tl : List ℝ) (y : Fin n → Fin n → List ℝ) : ℕ → Option (List ((Fin n → ℝ) × ℝ))
  | 0 => some []
  | p + 1 =>
    match ubwtLoopKind K H tl y p with
    | none => none
    | some l =>
      match ubwtStepKind K H tl y (l.map Prod.fst) p with
      | none => none
      | some x => some (l ++ [x])

/-- `solve` for `UBWT` (l. 279-333). -/
def ubwtKind (K : Kind) (H : Fin n → ℝ) (resp : List ℝ → Fin n → Fin n → List ℝ) (time : List ℝ) (thr : ℝ) : Option (List ℝ × List (Fin n → ℝ)) :=
  if K.built (timeLong time thr) then
    match ubwtLoopKind K H (timeLong time thr) (resp (timeLong time thr)) (timeLong time thr).length with
    | none => none
    | some l => some (linearize time thr (l.map Prod.snd), linearizeQ time thr (l.map Prod.fst))
  else none

/-- One step of `MIFT` (l. 360-422). -/
def miftStepKind (K : Kind) (H : Fin n → ℝ) (f : Flow n) (tl : List ℝ) (y : Fin n → Fin n → List ℝ) (past : List (Fin n → ℝ)) (p : ℕ) : Option (MiftState n) :=
  match stepDataKind K tl y past p with
  | none => none
  | some (h, T0) =>
    match linsolve (miftA H f h) (Sum.elim (fun i => -T0 i) (Sum.elim (fun _ => 0) fun _ => ∑ i, H i)) with
    | none => none
    | some X => some ⟨fun i => X (.inl i), fun i => X (.inr (.inl i)), X (.inr (.inr ())), effective (∑ i, H i) f (X (.inr (.inr ())))⟩

/-- The first `p` steps. -/
def miftLoopKind (K : Kind) (H : Fin n → ℝ) (f : Flow n) (tl : List ℝ) (y : Fin n → Fin n → List ℝ) : ℕ → Option (List (MiftState n))
  | 0 => some []
  | p + 1 =>
    match miftLoopKind K H f tl y p with
    | none => none
    | some l =>
      match miftStepKind K H f tl y (l.map MiftState.Q) p with
      | none => none
      | some x => some (l ++ [x])

/-- `solve` for `MIFT` with one flow rate (l. 335-453). -/
def miftKind (K : Kind) (H : Fin n → ℝ) (f : Flow n) (resp : List ℝ → Fin n → Fin n → List ℝ) (time : List ℝ) (thr : ℝ) :
    Option (List ℝ × List (Fin n → ℝ) × (Fin n → List ℝ)) :=
  if K.built (timeLong time thr) then
    match miftLoopKind K H f (timeLong time thr) (resp (timeLong time thr)) (timeLong time thr).length with
    | none => none
    | some l => some (linearize time thr (l.map MiftState.g), linearizeQ time thr (l.map MiftState.Q), fun i => linearize time thr (l.map fun x => x.T i))
  else none

end Verif.Sol
