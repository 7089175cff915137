import Verif.Pipe.GetModel
import Verif.Pipe.UTubeHeatProps

/-!
# Property C115: numbers and arrays in the `get_*` methods of pipes and networks

A number stands for one value: as temperature or rate of a single circuit it gives the number in the array returned for an array of one value, and as wall temperature it gives the results of a uniform
wall for every discretization.
-/

noncomputable section

namespace Verif.Pipe.Get

open Matrix

variable {ι : Type} [Fintype ι] {ni : ℕ}

/-! ### Shapes -/

theorem matVec_eq {r : Type*} {c : ℕ} (M : Matrix r (Fin c) ℝ) (v : Fin c → ℝ) : matVec M (List.ofFn v) = .ok (M *ᵥ v) := by
  unfold matVec
  rw [dif_pos (List.length_ofFn)]
  congr 1
  funext i
  simp [mulVec, dotProduct]

theorem matVec_ne {r : Type*} {c : ℕ} (M : Matrix r (Fin c) ℝ) {v : List ℝ} (h : v.length ≠ c) : matVec M v = .error .value := dif_neg h

/-- A list of `c` values is a vector. -/
theorem exists_vec {c : ℕ} {v : List ℝ} (h : v.length = c) : ∃ x : Fin c → ℝ, v = List.ofFn x := by
  subst h
  exact ⟨v.get, (List.ofFn_get v).symm⟩

theorem affine_eq {r : Type*} {c k : ℕ} (M : Matrix r (Fin c) ℝ × Matrix r (Fin k) ℝ) (x : Fin c → ℝ) (y : Fin k → ℝ) :
    affine M (List.ofFn x) (List.ofFn y) = .ok (M.1 *ᵥ x + M.2 *ᵥ y) := by
  unfold affine
  rw [matVec_eq, matVec_eq]
  rfl

theorem affine_ne {r : Type*} {c k : ℕ} (M : Matrix r (Fin c) ℝ × Matrix r (Fin k) ℝ) {x y : List ℝ} (h : ¬ (x.length = c ∧ y.length = k)) :
    affine M x y = .error .value := by
  unfold affine
  by_cases hx : x.length = c
  · obtain ⟨x, rfl⟩ := exists_vec hx
    rw [matVec_eq, matVec_ne _ fun hy => h ⟨hx, hy⟩]
    rfl
  · rw [matVec_ne _ hx]
    rfl

/-! ### Specification -/

/-- The segments given by `T_b` and `segment_ratios` match. -/
def Segments (Tb : Py) (q : Option (List ℝ)) : Prop :=
  match q with
  | none => Tb.toList ≠ []
  | some l => l.length = Tb.toList.length

/-- `p` is a number exactly if `r` is one, and otherwise both are arrays of the same length. -/
def SameForm (p r : Py) : Prop := p.isNum = r.isNum ∧ p.toList.length = r.toList.length

theorem count_iff (Tb : Py) (q : Option (List ℝ)) : Segments Tb q ↔ (checkSegs Tb.toList.length q = .ok () ∧ count Tb.toList.length q = Tb.toList.length) := by
  unfold Segments checkSegs count
  cases q with
  | none => simp
  | some l => simp

theorem py_ext {r s : Py} (h : r.toList = s.toList) (hn : r.isNum = s.isNum) : r = s := by
  cases r <;> cases s <;> simp_all [Py.toList, Py.isNum]

/-- Result of a method with the coefficients `c`. -/
theorem run_iff {X : Type} {n : ℕ} {q : Option (List ℝ)} (o : Option X) (f : X → Except Err Py) (y : Py) :
    ((do checkSegs n q; let c ← orLinalg o; f c) = Except.ok y) ↔ checkSegs n q = .ok () ∧ ∃ c, o = some c ∧ f c = .ok y := by
  unfold checkSegs orLinalg
  by_cases h : n = 0 ∧ q.isNone
  · rw [if_pos h]
    constructor
    · intro e; cases e
    · rintro ⟨e, -⟩; cases e
  · rw [if_neg h]
    cases o with
    | none =>
      constructor
      · intro e; cases e
      · rintro ⟨-, c, e, -⟩; cases e
    | some c =>
      constructor
      · intro e; exact ⟨rfl, c, rfl, e⟩
      · rintro ⟨-, c', e, h⟩; cases e; exact h

theorem like_ofFn {m : ℕ} (p : Py) (T : Fin m → ℝ) (h : p.toList.length = m) : ∃ r, like p (List.ofFn T) = .ok r ∧ r.toList = List.ofFn T ∧ r.isNum = p.isNum := by
  cases p with
  | num x =>
    obtain rfl : 1 = m := h
    exact ⟨.num (T 0), by simp [like, Py.isNum, item], by simp [Py.toList], rfl⟩
  | arr l => exact ⟨.arr (List.ofFn T), rfl, rfl, rfl⟩

/-- The methods that return what has the form of their first argument. -/
theorem like_iff {k : ℕ} (c : Matrix (Fin ni) (Fin ni) ℝ × Matrix (Fin ni) (Fin k) ℝ) (p Tb r : Py) :
    ((do let T ← affine c p.toList Tb.toList; like p (List.ofFn T)) = Except.ok r) ↔
      ∃ (x : Fin ni → ℝ) (y : Fin k → ℝ), p.toList = List.ofFn x ∧ Tb.toList = List.ofFn y ∧ r.toList = List.ofFn (c.1 *ᵥ x + c.2 *ᵥ y) ∧ r.isNum = p.isNum := by
  by_cases h : p.toList.length = ni ∧ Tb.toList.length = k
  · obtain ⟨x, hx⟩ := exists_vec h.1
    obtain ⟨y, hy⟩ := exists_vec h.2
    obtain ⟨s, h1, h2, h3⟩ := like_ofFn p (c.1 *ᵥ x + c.2 *ᵥ y) h.1
    have e : (do let T ← affine c p.toList Tb.toList; like p (List.ofFn T)) = Except.ok s := by
      rw [hx, hy, affine_eq]
      exact h1
    rw [e]
    constructor
    · intro er
      cases er
      exact ⟨x, y, hx, hy, h2, h3⟩
    · rintro ⟨x', y', hx', hy', hr, hn⟩
      obtain rfl : x = x' := List.ofFn_injective (hx.symm.trans hx')
      obtain rfl : y = y' := List.ofFn_injective (hy.symm.trans hy')
      rw [py_ext (h2.trans hr.symm) (h3.trans hn.symm)]
  · rw [affine_ne _ h]
    constructor
    · intro e; cases e
    · rintro ⟨x, y, hx, hy, -⟩
      exact (h ⟨by simp [hx], by simp [hy]⟩).elim

/-- What a method returns from coefficients: the shapes fit, and `r` has the values and the form of the first argument. -/
def Gives {k : ℕ} (o : Option (Matrix (Fin ni) (Fin ni) ℝ × Matrix (Fin ni) (Fin k) ℝ)) (p Tb r : Py) : Prop :=
  ∃ (c : _) (x : Fin ni → ℝ) (y : Fin k → ℝ), o = some c ∧ p.toList = List.ofFn x ∧ Tb.toList = List.ofFn y ∧ r.toList = List.ofFn (c.1 *ᵥ x + c.2 *ᵥ y) ∧ r.isNum = p.isNum

theorem gives_iff {n k : ℕ} {q : Option (List ℝ)} (o : Option (Matrix (Fin ni) (Fin ni) ℝ × Matrix (Fin ni) (Fin k) ℝ)) (p Tb r : Py) :
    ((do checkSegs n q; let c ← orLinalg o; let T ← affine c p.toList Tb.toList; like p (List.ofFn T)) = Except.ok r) ↔ checkSegs n q = .ok () ∧ Gives o p Tb r := by
  rw [run_iff o (fun c => do let T ← affine c p.toList Tb.toList; like p (List.ofFn T)) r]
  simp only [like_iff]
  constructor
  · rintro ⟨h, c, ho, x, y, h'⟩
    exact ⟨h, c, x, y, ho, h'⟩
  · rintro ⟨h, c, x, y, ho, h'⟩
    exact ⟨h, c, ho, x, y, h'⟩

variable (P : Tubes ι ni) {Tin Tb Q r : Py} {q : Option (List ℝ)}

omit [Fintype ι] in
theorem getOutlet_iff : getOutlet P Tin Tb q = .ok r ↔ checkSegs Tb.toList.length q = .ok () ∧ Gives (P.outlet (count Tb.toList.length q) (edges P.H Tb.toList.length q)) Tin Tb r :=
  gives_iff _ _ _ _

omit [Fintype ι] in
theorem getFluid_iff : getFluid P Tin Tb q = .ok r ↔ checkSegs Tb.toList.length q = .ok () ∧ Gives (P.fluid (count Tb.toList.length q) (edges P.H Tb.toList.length q)) Tin Tb r :=
  gives_iff _ _ _ _

omit [Fintype ι] in
theorem getInlet_iff : getInlet P Q Tb q = .ok r ↔ checkSegs Tb.toList.length q = .ok () ∧ Gives (P.inlet (count Tb.toList.length q) (edges P.H Tb.toList.length q)) Q Tb r :=
  gives_iff _ _ _ _

theorem Gives.form {k : ℕ} {o : Option (Matrix (Fin ni) (Fin ni) ℝ × Matrix (Fin ni) (Fin k) ℝ)} {p : Py} (h : Gives o p Tb r) : SameForm p r ∧ p.toList.length = ni ∧ Tb.toList.length = k := by
  obtain ⟨c, x, y, -, hx, hy, hr, hn⟩ := h
  exact ⟨⟨hn.symm, by rw [hx, hr]; simp⟩, by simp [hx], by simp [hy]⟩

omit [Fintype ι] in
/-- **C115** (types).  Outlet temperatures, inlet temperatures and heat extraction rates of the circuits have the form of the first argument: a number for a number, an array for an array.  They are
returned only if there is one value for each circuit and the ratios fit the wall temperatures. -/
theorem form_partial (h : getOutlet P Tin Tb q = .ok r ∨ getInlet P Tin Tb q = .ok r ∨ getFluid P Tin Tb q = .ok r) :
    SameForm Tin r ∧ Tin.toList.length = ni ∧ Segments Tb q := by
  rw [count_iff]
  rcases h with h | h | h
  · obtain ⟨h1, h2⟩ := (getOutlet_iff P).mp h
    exact ⟨h2.form.1, h2.form.2.1, h1, h2.form.2.2.symm⟩
  · obtain ⟨h1, h2⟩ := (getInlet_iff P).mp h
    exact ⟨h2.form.1, h2.form.2.1, h1, h2.form.2.2.symm⟩
  · obtain ⟨h1, h2⟩ := (getFluid_iff P).mp h
    exact ⟨h2.form.1, h2.form.2.1, h1, h2.form.2.2.symm⟩

omit [Fintype ι] in
/-- **C115** (violated).  With several circuits a number is not accepted, although the documentation allows it. -/
theorem several_circuits_raise (hn : ni ≠ 1) (x : ℝ) (Tb : Py) (q : Option (List ℝ)) (r : Py) :
    getOutlet P (.num x) Tb q ≠ .ok r ∧ getInlet P (.num x) Tb q ≠ .ok r ∧ getFluid P (.num x) Tb q ≠ .ok r :=
  ⟨fun h => hn (form_partial P (.inl h)).2.1.symm, fun h => hn (form_partial P (.inr (.inl h))).2.1.symm, fun h => hn (form_partial P (.inr (.inr h))).2.1.symm⟩

/-- **C115** (violated).  The heat extraction rates of the segments are an array also for a number. -/
theorem heat_never_number (Tin Tb : Py) (q : Option (List ℝ)) (x : ℝ) : getHeat P Tin Tb q ≠ .ok (.num x) := by
  intro h
  unfold getHeat checkSegs orLinalg at h
  dsimp only at h
  split_ifs at h
  · cases h
  · revert h
    cases allSome (List.ofFn (P.heat (count (Py.arr Tb.toList).toList.length q) (edges P.H (Py.arr Tb.toList).toList.length q))) with
    | none => intro h; cases h
    | some c =>
      intro h
      dsimp only [bind, Except.bind] at h
      revert h
      generalize affine (r := Fin c.length) _ _ _ = a
      intro h
      cases a with
      | error e => cases h
      | ok T => cases h

/-! ### Inverses -/

theorem Gives.ok {k : ℕ} {o : Option (Matrix (Fin ni) (Fin ni) ℝ × Matrix (Fin ni) (Fin k) ℝ)} {p : Py} (h : Gives o p Tb r) : ∃ c, o = some c := ⟨_, h.choose_spec.choose_spec.choose_spec.1⟩

omit [Fintype ι] in
theorem inverse_gives {k : ℕ} {zu : ℕ → ℝ} : Gives (P.inlet k zu) Q Tb Tin → Gives (P.fluid k zu) Tin Tb Q := by
  rintro ⟨c, x, y, ho, hx, hy, hr, hn⟩
  unfold Tubes.inlet at ho
  cases hf : P.fluid k zu with
  | none => rw [hf] at ho; cases ho
  | some d =>
    rw [hf] at ho
    dsimp only [Option.bind_some] at ho
    split_ifs at ho with hu
    cases ho
    refine ⟨d, d.1⁻¹ *ᵥ x + (-(d.1⁻¹ * d.2)) *ᵥ y, y, rfl, hr, hy, ?_, hn.symm⟩
    rw [hx]
    congr 1
    rw [mulVec_add, mulVec_mulVec, mul_nonsing_inv _ hu, one_mulVec, mulVec_mulVec, Matrix.mul_neg, ← Matrix.mul_assoc, mul_nonsing_inv _ hu, Matrix.one_mul, neg_mulVec]
    simp

omit [Fintype ι] in
theorem gives_inverse {k : ℕ} {zu : ℕ → ℝ} {c : _} (hc : P.inlet k zu = some c) : Gives (P.fluid k zu) Tin Tb Q → Gives (P.inlet k zu) Q Tb Tin := by
  rintro ⟨d, x, y, ho, hx, hy, hr, hn⟩
  have hc' := hc
  unfold Tubes.inlet at hc'
  rw [ho] at hc'
  dsimp only [Option.bind_some] at hc'
  split_ifs at hc' with hu
  cases hc'
  refine ⟨_, d.1 *ᵥ x + d.2 *ᵥ y, y, hc, hr, hy, ?_, hn.symm⟩
  rw [hx]
  congr 1
  rw [mulVec_add, mulVec_mulVec, nonsing_inv_mul _ hu, one_mulVec, mulVec_mulVec, neg_mulVec]
  simp

omit [Fintype ι] in
/-- **C115** (inverses).  The inlet temperature returned for a heat extraction rate gives that rate; conversely, if the coefficients for the inlet temperature exist, the rate returned for an inlet
temperature gives that temperature. -/
theorem inlet_inverse_partial (Q T Tb : Py) (q : Option (List ℝ)) :
    (getInlet P Q Tb q = .ok T → getFluid P T Tb q = .ok Q) ∧
    (getFluid P T Tb q = .ok Q → getInlet P Q Tb q = .ok T ∨ getInlet P Q Tb q = .error .linalg) := by
  constructor
  · intro h
    obtain ⟨h1, h2⟩ := (getInlet_iff P).mp h
    exact (getFluid_iff P).mpr ⟨h1, inverse_gives P h2⟩
  · intro h
    obtain ⟨h1, h2⟩ := (getFluid_iff P).mp h
    cases hc : P.inlet (count Tb.toList.length q) (edges P.H Tb.toList.length q) with
    | some c => exact .inl ((getInlet_iff P).mpr ⟨h1, gives_inverse P hc h2⟩)
    | none =>
      right
      unfold getInlet
      dsimp only
      rw [h1, hc]
      rfl

/-! ### Uniform wall temperatures -/

/-- Coefficients for `k` segments and for one segment: the same for the inlet, and those of the segments add up to that of the whole wall. -/
def Whole {ρ : Type*} {c k : ℕ} (o : Option (Matrix ρ (Fin c) ℝ × Matrix ρ (Fin k) ℝ)) (o1 : Option (Matrix ρ (Fin c) ℝ × Matrix ρ (Fin 1) ℝ)) : Prop :=
  (o = none ∧ o1 = none) ∨ ∃ d d1, o = some d ∧ o1 = some d1 ∧ d.1 = d1.1 ∧ ∀ i, ∑ u, d.2 i u = d1.2 i 0

theorem mulVec_whole {ρ : Type*} {k : ℕ} {M : Matrix ρ (Fin k) ℝ} {M1 : Matrix ρ (Fin 1) ℝ} (h : ∀ i, ∑ u, M i u = M1 i 0) (T : ℝ) :
    M *ᵥ (fun _ => T) = M1 *ᵥ (fun _ => T) := by
  funext i
  simp only [mulVec, dotProduct, ← Finset.sum_mul, h, Fin.sum_univ_one]

theorem mul_whole {ρ σ : Type*} [Fintype ρ] {k : ℕ} (A : Matrix σ ρ ℝ) {M : Matrix ρ (Fin k) ℝ} {M1 : Matrix ρ (Fin 1) ℝ} (h : ∀ i, ∑ u, M i u = M1 i 0) (i : σ) :
    ∑ u, (A * M) i u = (A * M1) i 0 := by
  simp only [Matrix.mul_apply]
  rw [Finset.sum_comm]
  exact Finset.sum_congr rfl fun j _ => by rw [← Finset.mul_sum, h]

/-- The wall of the borehole enters through its edges only. -/
structure Tubes.Uniform (P : Tubes ι ni) : Prop where
  outlet : ∀ k zu zu1, zu 0 = zu1 0 → zu k = zu1 1 → Whole (P.outlet k zu) (P.outlet 1 zu1)
  temp : ∀ k zu zu1 z, zu 0 = zu1 0 → zu k = zu1 1 → Whole (P.temp k zu z) (P.temp 1 zu1 z)

theorem sum_diff (f : ℕ → ℝ) (k : ℕ) : ∑ u : Fin k, (f (u + 1) - f u) = f k - f 0 := by
  rw [Fin.sum_univ_eq_sum_range (fun u => f (u + 1) - f u), Finset.sum_range_sub]

theorem uTube_uniform (t : UTube) (m cp : ℝ) : (ofUTube t m cp).Uniform := by
  constructor
  · intro k zu zu1 h0 h1
    refine .inr ⟨_, _, rfl, rfl, rfl, fun i => ?_⟩
    unfold UPar.outB
    rw [Finset.sum_neg_distrib, sum_diff fun u => (t.par m cp).outEdge (zu u)]
    simp [h0, h1]
  · intro k zu zu1 z h0 h1
    refine .inr ⟨_, _, rfl, rfl, rfl, fun i => ?_⟩
    unfold UTube.tempB UPar.wallDown UPar.wallUp
    dsimp only
    split_ifs
    · rw [← Finset.mul_sum, sum_diff fun u => (t.par m cp).edgeDown z (zu u)]
      simp [h0, h1]
    · rw [← Finset.mul_sum, sum_diff fun u => (t.par m cp).edgeUp z (zu u)]
      simp [h0, h1]

theorem genB_whole {n : ℕ} (A : Matrix (Multi.P n) (Multi.P n) ℝ) (e : Multi.Eig n) {k : ℕ} {zu zu1 : ℕ → ℝ} (h0 : zu 0 = zu1 0) (h1 : zu k = zu1 1) (z : ℝ) (i : Multi.P n) :
    ∑ u : Fin k, Multi.genB A e zu z i u = Multi.genB A e zu1 z i 0 := by
  unfold Multi.genB
  rw [← Complex.re_sum, Finset.sum_comm]
  congr 1
  refine Finset.sum_congr rfl fun j _ => ?_
  rw [← Finset.mul_sum]
  congr 1
  rw [Fin.sum_univ_eq_sum_range (fun u => Complex.exp (e.L j * (max (z - zu (u + 1)) 0 : ℝ)) - Complex.exp (e.L j * (max (z - zu u) 0 : ℝ))),
    Finset.sum_range_sub (fun u => Complex.exp (e.L j * (max (z - zu u) 0 : ℝ))), h0, h1]

theorem multi_uniform {n : ℕ} (c : Multi.Conn n ni ni) (Rd : Matrix (Multi.P n) (Multi.P n) ℝ) (e : Multi.Eig n) (H : ℝ) : (ofMulti c Rd e H).Uniform := by
  have hs : ∀ k zu k' zu', (Multi.mkBore k c Rd e zu H).upSolve = (Multi.mkBore k' c Rd e zu' H).upSolve := fun _ _ _ _ => rfl
  constructor
  · intro k zu zu1 h0 h1
    have hb : ∀ z i, ∑ u, (Multi.mkBore k c Rd e zu H).fb z i u = (Multi.mkBore 1 c Rd e zu1 H).fb z i 0 := fun z i => genB_whole _ _ h0 h1 _ _
    unfold ofMulti Multi.Bore.outletCoef
    dsimp only
    rw [hs k zu 1 zu1]
    cases (Multi.mkBore 1 c Rd e zu1 H).upSolve with
    | none => exact .inl ⟨rfl, rfl⟩
    | some S => exact .inr ⟨_, _, rfl, rfl, rfl, mul_whole _ (hb _)⟩
  · intro k zu zu1 z h0 h1
    have hb : ∀ z i, ∑ u, (Multi.mkBore k c Rd e zu H).fb z i u = (Multi.mkBore 1 c Rd e zu1 H).fb z i 0 := fun z i => genB_whole _ _ h0 h1 _ _
    unfold ofMulti Multi.Bore.tempCoef
    dsimp only
    rw [hs k zu 1 zu1]
    cases (Multi.mkBore 1 c Rd e zu1 H).upSolve with
    | none => exact .inl ⟨rfl, rfl⟩
    | some S =>
      refine .inr ⟨_, _, rfl, rfl, rfl, fun i => ?_⟩
      dsimp only
      simp only [Matrix.add_apply]
      rw [Finset.sum_add_distrib, mul_whole _ (hb _), hb]
      rfl

/-- The segments cover the borehole: as many ratios as segments, with sum one, or segments of equal length. -/
def Cover (n : ℕ) (q : Option (List ℝ)) : Prop :=
  match q with
  | none => 0 < n
  | some l => l.length = n ∧ l.sum = 1

theorem cover_edges {H : ℝ} {n : ℕ} {q : Option (List ℝ)} (h : Cover n q) : edges H n q 0 = 0 ∧ edges H n q (count n q) = H := by
  unfold edges count
  cases q with
  | none =>
    have hn : (n : ℝ) ≠ 0 := by exact_mod_cast (show 0 < n from h).ne'
    simp [List.take_of_length_le, hn]
  | some l => simp [h.2]

theorem Whole.gives {k : ℕ} {o : Option (Matrix (Fin ni) (Fin ni) ℝ × Matrix (Fin ni) (Fin k) ℝ)} {o1 : Option (Matrix (Fin ni) (Fin ni) ℝ × Matrix (Fin ni) (Fin 1) ℝ)} (h : Whole o o1) {p : Py}
    (T : ℝ) : Gives o p (.arr (List.replicate k T)) r ↔ Gives o1 p (.num T) r := by
  have ek : (Py.arr (List.replicate k T)).toList = List.ofFn fun _ : Fin k => T := by simp [Py.toList]
  have e1 : (Py.num T).toList = List.ofFn fun _ : Fin 1 => T := by simp [Py.toList]
  rcases h with ⟨rfl, rfl⟩ | ⟨d, d1, rfl, rfl, hd, hs⟩
  · constructor <;> rintro ⟨c, x, y, h, -⟩ <;> cases h
  · have hv := mulVec_whole hs T
    constructor
    · rintro ⟨c, x, y, h, hx, hy, hr, hn⟩
      cases h
      obtain rfl : (fun _ => T) = y := List.ofFn_injective (ek.symm.trans hy)
      exact ⟨d1, x, _, rfl, hx, e1, by rw [hr, hv, hd], hn⟩
    · rintro ⟨c, x, y, h, hx, hy, hr, hn⟩
      cases h
      obtain rfl : (fun _ => T) = y := List.ofFn_injective (e1.symm.trans hy)
      exact ⟨d, x, _, rfl, hx, ek, by rw [hr, hv, hd], hn⟩

omit [Fintype ι] in
theorem Tubes.Uniform.fluid {P : Tubes ι ni} (h : P.Uniform) {k : ℕ} {zu zu1 : ℕ → ℝ} (h0 : zu 0 = zu1 0) (h1 : zu k = zu1 1) : Whole (P.fluid k zu) (P.fluid 1 zu1) := by
  unfold Tubes.fluid
  rcases h.outlet k zu zu1 h0 h1 with ⟨e, e1⟩ | ⟨d, d1, e, e1, hd, hs⟩
  · rw [e, e1]; exact .inl ⟨rfl, rfl⟩
  · rw [e, e1]
    exact .inr ⟨_, _, rfl, rfl, by dsimp only; rw [hd], mul_whole _ hs⟩

omit [Fintype ι] in
theorem Tubes.Uniform.inlet {P : Tubes ι ni} (h : P.Uniform) {k : ℕ} {zu zu1 : ℕ → ℝ} (h0 : zu 0 = zu1 0) (h1 : zu k = zu1 1) : Whole (P.inlet k zu) (P.inlet 1 zu1) := by
  unfold Tubes.inlet
  rcases h.fluid h0 h1 with ⟨e, e1⟩ | ⟨d, d1, e, e1, hd, hs⟩
  · rw [e, e1]; exact .inl ⟨rfl, rfl⟩
  · rw [e, e1]
    dsimp only [Option.bind_some]
    rw [hd]
    split_ifs
    · refine .inr ⟨_, _, rfl, rfl, rfl, fun i => ?_⟩
      dsimp only
      simp only [Matrix.neg_apply]
      rw [Finset.sum_neg_distrib, mul_whole _ hs]
    · exact .inl ⟨rfl, rfl⟩

theorem one_edges (H : ℝ) : edges H 1 none 0 = 0 ∧ edges H 1 none 1 = H := by
  unfold edges
  simp

theorem cover_check {n : ℕ} {q : Option (List ℝ)} (h : Cover n q) : checkSegs n q = .ok () ∧ count n q = n := by
  unfold checkSegs count
  cases q with
  | none =>
    have h' : 0 < n := h
    simp [h'.ne']
  | some l => simp [h.1]

theorem replicate_gives {o : (k : ℕ) → (ℕ → ℝ) → Option (Matrix (Fin ni) (Fin ni) ℝ × Matrix (Fin ni) (Fin k) ℝ)} {H : ℝ} {n : ℕ} (hq : Cover n q) {p : Py} (T : ℝ)
    (ho : ∀ k zu zu1, zu 0 = zu1 0 → zu k = zu1 1 → Whole (o k zu) (o 1 zu1)) :
    (checkSegs (Py.arr (List.replicate n T)).toList.length q = .ok () ∧
      Gives (o (count (Py.arr (List.replicate n T)).toList.length q) (edges H (Py.arr (List.replicate n T)).toList.length q)) p (.arr (List.replicate n T)) r) ↔
    (checkSegs (Py.num T).toList.length none = .ok () ∧ Gives (o (count (Py.num T).toList.length none) (edges H (Py.num T).toList.length none)) p (.num T) r) := by
  have e : (Py.arr (List.replicate n T)).toList.length = n := by simp [Py.toList]
  obtain ⟨c1, c2⟩ := cover_check hq
  obtain ⟨h0, h1⟩ := cover_edges (H := H) hq
  obtain ⟨g0, g1⟩ := one_edges H
  rw [e]
  have c3 : checkSegs (Py.num T).toList.length none = .ok () := rfl
  have c4 : count (Py.num T).toList.length none = 1 := rfl
  have e1 : (Py.num T).toList.length = 1 := rfl
  rw [c1, c3, c4, e1]
  rw [c2] at h1 ⊢
  rw [(ho n (edges H n q) (edges H 1 none) (h0.trans g0.symm) (h1.trans g1.symm)).gives T]

/-! ### Temperatures and heat extraction rates of the segments -/

theorem allSome_ofFn {X : Type*} {k : ℕ} (f : Fin k → Option X) (c : List X) : allSome (List.ofFn f) = some c ↔ ∃ g : Fin k → X, (∀ v, f v = some (g v)) ∧ c = List.ofFn g := by
  induction k generalizing c with
  | zero =>
    simp only [List.ofFn_zero, allSome, Option.some.injEq]
    exact ⟨fun h => ⟨Fin.elim0, fun v => v.elim0, h.symm⟩, fun ⟨_, _, h⟩ => h.symm⟩
  | succ k ih =>
    rw [List.ofFn_succ, allSome]
    constructor
    · intro h
      cases h0 : f 0 with
      | none => rw [h0] at h; cases h
      | some x =>
        rw [h0] at h
        dsimp only [Option.bind_some] at h
        obtain ⟨d, hd, rfl⟩ := Option.map_eq_some_iff.mp h
        obtain ⟨g, hg, rfl⟩ := (ih _ _).mp hd
        refine ⟨Fin.cons x g, fun v => ?_, by simp [List.ofFn_succ]⟩
        refine Fin.cases ?_ (fun v => ?_) v
        · simpa using h0
        · simpa using hg v
    · rintro ⟨g, hg, rfl⟩
      rw [hg 0]
      dsimp only [Option.bind_some]
      rw [(ih _ _).mpr ⟨fun v => g v.succ, fun v => hg v.succ, rfl⟩]
      simp [List.ofFn_succ]

/-- Temperatures of the pipes at the depth `z`. -/
def TempAt (P : Tubes ι ni) (k : ℕ) (zu : ℕ → ℝ) (p Tb : Py) (z : ℝ) (T : ι → ℝ) : Prop :=
  ∃ (c : _) (x : Fin ni → ℝ) (y : Fin k → ℝ), P.temp k zu z = some c ∧ p.toList = List.ofFn x ∧ Tb.toList = List.ofFn y ∧ T = c.1 *ᵥ x + c.2 *ᵥ y

omit [Fintype ι] in
theorem Tubes.Uniform.tempAt {P : Tubes ι ni} (h : P.Uniform) {k : ℕ} {zu zu1 : ℕ → ℝ} (h0 : zu 0 = zu1 0) (h1 : zu k = zu1 1) (p : Py) (T z : ℝ) (v : ι → ℝ) :
    TempAt P k zu p (.arr (List.replicate k T)) z v ↔ TempAt P 1 zu1 p (.num T) z v := by
  have ek : (Py.arr (List.replicate k T)).toList = List.ofFn fun _ : Fin k => T := by simp [Py.toList]
  have e1 : (Py.num T).toList = List.ofFn fun _ : Fin 1 => T := by simp [Py.toList]
  unfold TempAt
  rcases h.temp k zu zu1 z h0 h1 with ⟨e, e'⟩ | ⟨d, d1, e, e', hd, hs⟩
  · rw [e, e']
    constructor <;> rintro ⟨c, x, y, h, -⟩ <;> cases h
  · rw [e, e']
    have hv := mulVec_whole hs T
    constructor
    · rintro ⟨c, x, y, h, hx, hy, hr⟩
      cases h
      obtain rfl : (fun _ => T) = y := List.ofFn_injective (ek.symm.trans hy)
      exact ⟨d1, x, _, rfl, hx, e1, by rw [hr, hv, hd]⟩
    · rintro ⟨c, x, y, h, hx, hy, hr⟩
      cases h
      obtain rfl : (fun _ => T) = y := List.ofFn_injective (e1.symm.trans hy)
      exact ⟨d, x, _, rfl, hx, ek, by rw [hr, hv, hd]⟩

theorem affine_iff {ρ : Type*} {c k : ℕ} (M : Matrix ρ (Fin c) ℝ × Matrix ρ (Fin k) ℝ) (x y : List ℝ) (v : ρ → ℝ) :
    affine M x y = .ok v ↔ ∃ (x' : Fin c → ℝ) (y' : Fin k → ℝ), x = List.ofFn x' ∧ y = List.ofFn y' ∧ v = M.1 *ᵥ x' + M.2 *ᵥ y' := by
  by_cases h : x.length = c ∧ y.length = k
  · obtain ⟨x, rfl⟩ := exists_vec h.1
    obtain ⟨y, rfl⟩ := exists_vec h.2
    rw [affine_eq]
    constructor
    · intro e; cases e; exact ⟨x, y, rfl, rfl, rfl⟩
    · rintro ⟨x', y', hx, hy, rfl⟩
      rw [List.ofFn_injective hx, List.ofFn_injective hy]
  · rw [affine_ne _ h]
    constructor
    · intro e; cases e
    · rintro ⟨x', y', hx, hy, -⟩
      exact (h ⟨by simp [hx], by simp [hy]⟩).elim

/-- The heat of a segment from the coefficients at its ends. -/
theorem heat_dot {k : ℕ} (mcp : ι → ℝ) (c1 c0 : Matrix ι (Fin ni) ℝ × Matrix ι (Fin k) ℝ) (x : Fin ni → ℝ) (y : Fin k → ℝ) :
    (mcp ᵥ* (c1.1 - c0.1)) ⬝ᵥ x + (mcp ᵥ* (c1.2 - c0.2)) ⬝ᵥ y = ∑ i, mcp i * ((c1.1 *ᵥ x + c1.2 *ᵥ y) i - (c0.1 *ᵥ x + c0.2 *ᵥ y) i) := by
  rw [← dotProduct_mulVec, ← dotProduct_mulVec, ← dotProduct_add, dotProduct]
  refine Finset.sum_congr rfl fun i _ => ?_
  rw [sub_mulVec, sub_mulVec]
  simp only [Pi.add_apply, Pi.sub_apply]
  ring

/-- **C115** (heat balance).  The heat extraction rates of the segments are the heat gained by the fluid in all pipes between the edges of each segment. -/
theorem getHeat_iff (hk : 0 < count Tb.toList.length q) : getHeat P Tin Tb q = .ok r ↔ checkSegs Tb.toList.length q = .ok () ∧
    ∃ T : ℕ → ι → ℝ, (∀ v ≤ count Tb.toList.length q, TempAt P (count Tb.toList.length q) (edges P.H Tb.toList.length q) Tin Tb (edges P.H Tb.toList.length q v) (T v)) ∧
      r = .arr (List.ofFn fun v : Fin (count Tb.toList.length q) => ∑ i, P.mcp i * (T (v + 1) i - T v i)) := by
  have e : getHeat P Tin Tb q = (do
      checkSegs Tb.toList.length q
      let c ← orLinalg (allSome (List.ofFn (P.heat (count Tb.toList.length q) (edges P.H Tb.toList.length q))))
      (fun c : List ((Fin ni → ℝ) × (Fin (count Tb.toList.length q) → ℝ)) => do
        let Q ← affine (r := Fin c.length) (fun v => (c.get v).1, fun v => (c.get v).2) Tin.toList Tb.toList
        like (.arr Tb.toList) (List.ofFn Q)) c) := rfl
  rw [e, run_iff]
  obtain ⟨k, hk'⟩ : ∃ k, k = count Tb.toList.length q := ⟨_, rfl⟩
  obtain ⟨zu, hz⟩ : ∃ zu, zu = edges P.H Tb.toList.length q := ⟨_, rfl⟩
  rw [← hz]
  rw [← hk'] at hk ⊢
  refine and_congr_right fun _ => ?_
  have hl : ∀ (g : Fin k → (Fin ni → ℝ) × (Fin k → ℝ)) (r : Py), ((do
        let Q ← affine (r := Fin (List.ofFn g).length) (fun v => ((List.ofFn g).get v).1, fun v => ((List.ofFn g).get v).2) Tin.toList Tb.toList
        like (.arr Tb.toList) (List.ofFn Q)) = Except.ok r) ↔
      ∃ x y, Tin.toList = List.ofFn x ∧ Tb.toList = List.ofFn y ∧ r = .arr (List.ofFn fun v : Fin k => (g v).1 ⬝ᵥ x + (g v).2 ⬝ᵥ y) := by
    intro g r
    obtain ⟨a, ha⟩ : ∃ a, a = affine (r := Fin (List.ofFn g).length) (fun v => ((List.ofFn g).get v).1, fun v => ((List.ofFn g).get v).2) Tin.toList Tb.toList := ⟨_, rfl⟩
    rw [← ha]
    have hL : ∀ (x : Fin ni → ℝ) (y : Fin k → ℝ), List.ofFn ((fun v => ((List.ofFn g).get v).1 : Matrix (Fin (List.ofFn g).length) (Fin ni) ℝ) *ᵥ x +
        (fun v => ((List.ofFn g).get v).2 : Matrix (Fin (List.ofFn g).length) (Fin k) ℝ) *ᵥ y) = List.ofFn fun v : Fin k => (g v).1 ⬝ᵥ x + (g v).2 ⬝ᵥ y := by
      intro x y
      refine List.ext_getElem (by simp) fun i h1 h2 => ?_
      simp [mulVec]
    cases a with
    | error e =>
      constructor
      · intro h; cases h
      · rintro ⟨x, y, hx, hy, -⟩
        rw [hx, hy, affine_eq] at ha
        cases ha
    | ok Q =>
      obtain ⟨x, y, hx, hy, rfl⟩ := (affine_iff _ _ _ _).mp ha.symm
      constructor
      · intro h
        cases h
        exact ⟨x, y, hx, hy, by rw [hL]⟩
      · rintro ⟨x', y', hx', hy', rfl⟩
        obtain rfl : x = x' := List.ofFn_injective (hx.symm.trans hx')
        obtain rfl : y = y' := List.ofFn_injective (hy.symm.trans hy')
        rw [← hL]
        rfl
  simp only [allSome_ofFn]
  constructor
  · rintro ⟨c, ⟨g, hg, rfl⟩, h⟩
    obtain ⟨x, y, hx, hy, rfl⟩ := (hl g r).mp h
    have hC : ∀ v, ∃ d, v ≤ k → P.temp k zu (zu v) = some d := by
      intro v
      by_cases hv : v ≤ k
      · obtain ⟨w, hw⟩ : ∃ w : Fin k, v = w ∨ v = w + 1 := by
          rcases Nat.lt_or_ge v k with h | h
          · exact ⟨⟨v, h⟩, .inl rfl⟩
          · exact ⟨⟨k - 1, by omega⟩, .inr (by dsimp only; omega)⟩
        have e := hg w
        unfold Tubes.heat at e
        obtain ⟨c1, e1, e2⟩ := Option.bind_eq_some_iff.mp e
        obtain ⟨c0, e0, -⟩ := Option.map_eq_some_iff.mp e2
        rcases hw with rfl | rfl
        · exact ⟨c0, fun _ => e0⟩
        · exact ⟨c1, fun _ => e1⟩
      · exact ⟨(0, 0), fun h => (hv h).elim⟩
    choose C hC using hC
    refine ⟨fun v => (C v).1 *ᵥ x + (C v).2 *ᵥ y, fun v hv => ⟨C v, x, y, hC v hv, hx, hy, rfl⟩, ?_⟩
    congr 2
    funext v
    have e := hg v
    unfold Tubes.heat at e
    rw [hC _ v.2, hC _ v.2.le] at e
    rw [← Option.some.inj e]
    exact heat_dot _ _ _ _ _
  · rintro ⟨T, hT, rfl⟩
    obtain ⟨c, x, y, -, hx, hy, -⟩ := hT 0 (Nat.zero_le _)
    have hC : ∀ v, ∃ d : Matrix ι (Fin ni) ℝ × Matrix ι (Fin k) ℝ, v ≤ k → P.temp k zu (zu v) = some d ∧ T v = d.1 *ᵥ x + d.2 *ᵥ y := by
      intro v
      by_cases hv : v ≤ k
      · obtain ⟨d, x', y', hd, hx', hy', h⟩ := hT v hv
        obtain rfl : x = x' := List.ofFn_injective (hx.symm.trans hx')
        obtain rfl : y = y' := List.ofFn_injective (hy.symm.trans hy')
        exact ⟨d, fun _ => ⟨hd, h⟩⟩
      · exact ⟨(0, 0), fun h => (hv h).elim⟩
    choose C hC using hC
    refine ⟨_, ⟨fun v => (P.mcp ᵥ* ((C (v + 1)).1 - (C v).1), P.mcp ᵥ* ((C (v + 1)).2 - (C v).2)), fun v => ?_, rfl⟩, ?_⟩
    · unfold Tubes.heat
      rw [(hC _ v.2).1, (hC _ v.2.le).1]
      rfl
    · rw [hl]
      refine ⟨x, y, hx, hy, ?_⟩
      congr 2
      funext v
      rw [heat_dot, (hC _ v.2).2, (hC _ v.2.le).2]

theorem mapM_forall₂ {X Y : Type} (f : ℝ → Option X) (g : X → Except Err Y) (z : List ℝ) (l : List Y) :
    (∃ c, allSome (z.map f) = some c ∧ c.mapM g = .ok l) ↔ List.Forall₂ (fun z v => ∃ c, f z = some c ∧ g c = .ok v) z l := by
  induction z generalizing l with
  | nil =>
    constructor
    · rintro ⟨c, h, h'⟩
      cases h
      cases h'
      exact .nil
    · intro h
      cases h
      exact ⟨[], rfl, rfl⟩
  | cons z zs ih =>
    constructor
    · rintro ⟨c, h, h'⟩
      rw [List.map_cons, allSome] at h
      obtain ⟨x, hx, h⟩ := Option.bind_eq_some_iff.mp h
      obtain ⟨d, hd, rfl⟩ := Option.map_eq_some_iff.mp h
      rw [List.mapM_cons] at h'
      cases hg : g x with
      | error e => rw [hg] at h'; cases h'
      | ok y =>
        rw [hg] at h'
        cases hm : d.mapM g with
        | error e => dsimp only [bind, Except.bind] at h'; rw [hm] at h'; cases h'
        | ok l' =>
          dsimp only [bind, Except.bind] at h'
          rw [hm] at h'
          cases h'
          exact .cons ⟨x, hx, hg⟩ ((ih l').mp ⟨d, hd, hm⟩)
    · intro h
      cases h with
      | cons h1 h2 =>
        obtain ⟨x, hx, hg⟩ := h1
        obtain ⟨d, hd, hm⟩ := (ih _).mpr h2
        refine ⟨x :: d, by rw [List.map_cons, allSome, hx, hd]; rfl, ?_⟩
        rw [List.mapM_cons, hg, hm]
        rfl

omit [Fintype ι] in
/-- **C115** (temperatures).  One array of temperatures of the pipes for each depth. -/
theorem getTemperature_iff (z : List ℝ) (l : List (ι → ℝ)) : getTemperature P z Tin Tb q = .ok l ↔ checkSegs Tb.toList.length q = .ok () ∧
    List.Forall₂ (TempAt P (count Tb.toList.length q) (edges P.H Tb.toList.length q) Tin Tb) z l := by
  have e : getTemperature P z Tin Tb q = (do
      checkSegs Tb.toList.length q
      let c ← orLinalg (allSome (z.map (P.temp (count Tb.toList.length q) (edges P.H Tb.toList.length q))))
      c.mapM fun c => affine c Tin.toList Tb.toList) := rfl
  have hf := mapM_forall₂ (P.temp (count Tb.toList.length q) (edges P.H Tb.toList.length q)) (fun c => affine c Tin.toList Tb.toList) z l
  have hT : (fun z v => ∃ c, P.temp (count Tb.toList.length q) (edges P.H Tb.toList.length q) z = some c ∧ affine c Tin.toList Tb.toList = .ok v) =
      TempAt P (count Tb.toList.length q) (edges P.H Tb.toList.length q) Tin Tb := by
    funext z v
    simp only [affine_iff, TempAt, eq_iff_iff]
    exact ⟨fun ⟨c, h, x, y, h'⟩ => ⟨c, x, y, h, h'⟩, fun ⟨c, x, y, h, h'⟩ => ⟨c, h, x, y, h'⟩⟩
  rw [hT] at hf
  rw [← hf, e]
  unfold checkSegs orLinalg
  by_cases h : Tb.toList.length = 0 ∧ q.isNone
  · rw [if_pos h]
    constructor
    · intro e; cases e
    · rintro ⟨e, -⟩; cases e
  · rw [if_neg h]
    cases allSome (z.map (P.temp (count Tb.toList.length q) (edges P.H Tb.toList.length q))) with
    | none =>
      constructor
      · intro e; cases e
      · rintro ⟨-, c, e, -⟩; cases e
    | some c =>
      constructor
      · intro e; exact ⟨rfl, c, rfl, e⟩
      · rintro ⟨-, c', e, h⟩; cases e; exact h

theorem Cover.pos {n : ℕ} (h : Cover n q) : 0 < n := by
  cases q with
  | none => exact h
  | some l =>
    rcases Nat.eq_zero_or_pos n with rfl | hn
    · have h2 := h.2
      rw [List.eq_nil_of_length_eq_zero h.1] at h2
      norm_num at h2
    · exact hn

/-- **C115** (uniform wall).  A number for the wall temperature gives what the same temperature in all segments gives, for every discretization; the heat extraction rates of the segments add up
to the rate for the number. -/
theorem uniform_wall (hP : P.Uniform) {n : ℕ} (hq : Cover n q) (T : ℝ) (Tin : Py) :
    (∀ r, getOutlet P Tin (.arr (List.replicate n T)) q = .ok r ↔ getOutlet P Tin (.num T) none = .ok r) ∧
    (∀ r, getInlet P Tin (.arr (List.replicate n T)) q = .ok r ↔ getInlet P Tin (.num T) none = .ok r) ∧
    (∀ r, getFluid P Tin (.arr (List.replicate n T)) q = .ok r ↔ getFluid P Tin (.num T) none = .ok r) ∧
    (∀ z l, getTemperature P z Tin (.arr (List.replicate n T)) q = .ok l ↔ getTemperature P z Tin (.num T) none = .ok l) ∧
    (∀ l, getHeat P Tin (.arr (List.replicate n T)) q = .ok (.arr l) → getHeat P Tin (.num T) none = .ok (.arr [l.sum])) := by
  have en : (Py.arr (List.replicate n T)).toList.length = n := by simp [Py.toList]
  have e1 : (Py.num T).toList.length = 1 := rfl
  obtain ⟨c1, c2⟩ := cover_check hq
  obtain ⟨h0, h1⟩ := cover_edges (H := P.H) hq
  obtain ⟨g0, g1⟩ := one_edges P.H
  rw [c2] at h1
  have hT := fun z v => hP.tempAt (h0.trans g0.symm) (h1.trans g1.symm) Tin T z v
  refine ⟨fun r => ?_, fun r => ?_, fun r => ?_, fun z l => ?_, fun l h => ?_⟩
  · rw [getOutlet_iff, getOutlet_iff]
    exact replicate_gives (o := P.outlet) hq T hP.outlet
  · rw [getInlet_iff, getInlet_iff]
    exact replicate_gives (o := P.inlet) hq T fun _ _ _ => hP.inlet
  · rw [getFluid_iff, getFluid_iff]
    exact replicate_gives (o := P.fluid) hq T fun _ _ _ => hP.fluid
  · rw [getTemperature_iff, getTemperature_iff, en, e1, c1]
    have hT' : TempAt P (count n q) (edges P.H n q) Tin (.arr (List.replicate n T)) = TempAt P (count 1 none) (edges P.H 1 none) Tin (.num T) := by
      funext z v
      rw [c2]
      exact propext (hT z v)
    rw [hT']
    exact Iff.rfl
  · rw [getHeat_iff P (by rw [en, c2]; exact hq.pos), en, c2] at h
    obtain ⟨-, τ, hτ, hl⟩ := h
    cases hl
    refine (getHeat_iff P (by exact Nat.one_pos)).mpr ⟨rfl, fun v => if v = 0 then τ 0 else τ n, fun v hv => ?_, ?_⟩
    · have hv' : v ≤ 1 := hv
      interval_cases v
      · have h := (hT _ _).mp (hτ 0 (Nat.zero_le _))
        rw [h0, ← g0] at h
        exact h
      · have h := (hT _ _).mp (hτ n le_rfl)
        rw [h1] at h
        nth_rewrite 2 [← g1] at h
        exact h
    · rw [List.sum_ofFn, Finset.sum_comm]
      have e : ∀ i, ∑ v : Fin n, P.mcp i * (τ (v + 1) i - τ v i) = P.mcp i * (τ n i - τ 0 i) := fun i => by
        rw [← Finset.mul_sum, sum_diff fun v => τ v i]
      simp only [e]
      rfl

theorem gives_number {k : ℕ} (o : Option (Matrix (Fin ni) (Fin ni) ℝ × Matrix (Fin ni) (Fin k) ℝ)) (x y : ℝ) : Gives o (.num x) Tb (.num y) ↔ Gives o (.arr [x]) Tb (.arr [y]) := by
  unfold Gives
  simp only [Py.toList, Py.isNum]

omit [Fintype ι] in
/-- **C115** (numbers).  A number gives the number in the array returned for an array of one value. -/
theorem number_value_partial (x y : ℝ) :
    (getOutlet P (.num x) Tb q = .ok (.num y) ↔ getOutlet P (.arr [x]) Tb q = .ok (.arr [y])) ∧
    (getInlet P (.num x) Tb q = .ok (.num y) ↔ getInlet P (.arr [x]) Tb q = .ok (.arr [y])) ∧
    (getFluid P (.num x) Tb q = .ok (.num y) ↔ getFluid P (.arr [x]) Tb q = .ok (.arr [y])) := by
  refine ⟨?_, ?_, ?_⟩
  · rw [getOutlet_iff, getOutlet_iff, gives_number]
  · rw [getInlet_iff, getInlet_iff, gives_number]
  · rw [getFluid_iff, getFluid_iff, gives_number]

omit [Fintype ι] in
/-- **C115** (total).  The total heat extraction rate is the heat gained by the fluid between the inlets and the outlets of all circuits. -/
theorem total_heat {t : ℝ} (h : getTotal P Tin Tb q = .ok t) :
    ∃ x o : Fin ni → ℝ, Tin.toList = List.ofFn x ∧ (∃ To, getOutlet P Tin Tb q = .ok To ∧ To.toList = List.ofFn o) ∧ t = ∑ i, P.mcpIn i * (o i - x i) := by
  unfold getTotal at h
  cases hQ : getFluid P Tin Tb q with
  | error e => rw [hQ] at h; cases h
  | ok Q =>
    rw [hQ] at h
    cases h
    obtain ⟨h1, d, x, y, hd, hx, hy, hr, hn⟩ := (getFluid_iff P).mp hQ
    unfold Tubes.fluid at hd
    obtain ⟨c, hc, rfl⟩ := Option.map_eq_some_iff.mp hd
    obtain ⟨To, -, hTo, hn'⟩ := like_ofFn Tin (c.1 *ᵥ x + c.2 *ᵥ y) (by simp [hx])
    refine ⟨x, c.1 *ᵥ x + c.2 *ᵥ y, hx, ⟨To, (getOutlet_iff P).mpr ⟨h1, c, x, y, hc, hx, hy, hTo, hn'⟩, hTo⟩, ?_⟩
    rw [hr, List.sum_ofFn]
    refine Finset.sum_congr rfl fun i _ => ?_
    rw [add_mulVec, neg_mulVec, ← mulVec_mulVec, ← mulVec_mulVec]
    simp only [Pi.add_apply, Pi.neg_apply, mulVec_diagonal]
    ring

/-- **C115** (single U-tubes and coaxial pipes).  Numbers and fitting arrays are accepted, and the values are those of the heat balance (C38, C39, C40). -/
theorem uTube_values {t : UTube} (hv : t.Valid) {m cp : ℝ} (hm : m ≠ 0) (hc : 0 < cp) {Tin Tb : Py} {q : Option (List ℝ)} (hT : Tin.toList.length = 1) (hq : Segments Tb q) :
    ∃ x, Tin.toList = [x] ∧
    (∃ r, getOutlet (ofUTube t m cp) Tin Tb q = .ok r ∧ SameForm Tin r ∧ r.toList = [t.outletT (edges t.H Tb.toList.length q) Tb.toList.length m cp x fun u => Tb.toList.getD u 0]) ∧
    (∃ r, getFluid (ofUTube t m cp) Tin Tb q = .ok r ∧ SameForm Tin r ∧ r.toList = [t.fluidHeat (edges t.H Tb.toList.length q) Tb.toList.length m cp x fun u => Tb.toList.getD u 0]) ∧
    ∃ r y, getInlet (ofUTube t m cp) Tin Tb q = .ok r ∧ SameForm Tin r ∧ r.toList = [y] ∧
      t.inletT (edges t.H Tb.toList.length q) Tb.toList.length m cp x (fun u => Tb.toList.getD u 0) = some y := by
  obtain ⟨h1, h2⟩ := (count_iff Tb q).mp hq
  obtain ⟨v, hv'⟩ := exists_vec hT
  obtain ⟨w, hw⟩ := exists_vec h2.symm
  have hsum : ∀ f : ℕ → ℝ, ∑ u ∈ Finset.range Tb.toList.length, f u * Tb.toList.getD u 0 = ∑ u : Fin (count Tb.toList.length q), f u * w u := by
    intro f
    have e : ∀ u : Fin (count Tb.toList.length q), f u * w u = f u * Tb.toList.getD u 0 := by
      intro u
      have : Tb.toList.getD u 0 = w u := by
        have h3 : Tb.toList.getD u.1 0 = (List.ofFn w).getD u.1 0 := congrArg (fun l => List.getD l u.1 0) hw
        rw [h3]
        simp
      rw [this]
    simp only [e]
    rw [Fin.sum_univ_eq_sum_range (fun u => f u * Tb.toList.getD u 0), h2]
  have hone : ∀ T : Fin 1 → ℝ, List.ofFn T = [T 0] := fun T => by simp
  have hx : Tin.toList = [v 0] := hv'.trans (hone v)
  have key : ∀ c : Matrix (Fin 1) (Fin 1) ℝ × Matrix (Fin 1) (Fin (count Tb.toList.length q)) ℝ, ∃ r, Gives (some c) Tin Tb r ∧ SameForm Tin r ∧
      r.toList = [c.1 0 0 * v 0 + ∑ u, c.2 0 u * w u] := by
    intro c
    obtain ⟨r, -, hr, hn⟩ := like_ofFn Tin (c.1 *ᵥ v + c.2 *ᵥ w) hT
    have hg : Gives (some c) Tin Tb r := ⟨c, v, w, rfl, hv', hw, hr, hn⟩
    refine ⟨r, hg, hg.form.1, ?_⟩
    rw [hr, hone]
    simp [mulVec, dotProduct]
  have hA := UTube.outA_lt hv hm hc
  have hM : 0 < |m| := abs_pos.mpr hm
  have hne : -(|m| * cp) + |m| * cp * (t.par m cp).outA ≠ 0 := by
    have : -(|m| * cp) + |m| * cp * (t.par m cp).outA = |m| * cp * ((t.par m cp).outA - 1) := by ring
    rw [this]
    exact mul_ne_zero (mul_pos hM hc).ne' (by linarith)
  have hfl : ∀ k zu, ∃ c, (ofUTube t m cp).fluid k zu = some c ∧ c.1 0 0 = -(|m| * cp) + |m| * cp * (t.par m cp).outA ∧
      ∀ u : Fin k, c.2 0 u = |m| * cp * (t.par m cp).outB zu u := by
    intro k zu
    refine ⟨_, rfl, ?_, ?_⟩
    · have e := diagonal_mul (fun _ : Fin 1 => |m| * cp) (Matrix.of fun _ _ : Fin 1 => (t.par m cp).outA) 0 0
      exact congrArg₂ (· + ·) (congrArg Neg.neg (diagonal_apply_eq (fun _ : Fin 1 => |m| * cp) 0)) e
    · intro u
      exact diagonal_mul (fun _ : Fin 1 => |m| * cp) (Matrix.of fun _ (u : Fin k) => (t.par m cp).outB zu u) 0 u
  refine ⟨v 0, hx, ?_, ?_, ?_⟩
  · obtain ⟨r, hg, hs, hr⟩ := key (fun _ _ => (t.par m cp).outA, fun _ u => (t.par m cp).outB (edges t.H Tb.toList.length q) u)
    refine ⟨r, (getOutlet_iff _).mpr ⟨h1, hg⟩, hs, ?_⟩
    rw [hr]
    unfold UTube.outletT UPar.outletT
    rw [hsum fun u => (t.par m cp).outB (edges t.H Tb.toList.length q) u]
  · obtain ⟨c, hc1, hc2, hc3⟩ := hfl (count Tb.toList.length q) (edges t.H Tb.toList.length q)
    obtain ⟨r, hg, hs, hr⟩ := key c
    refine ⟨r, (getFluid_iff _).mpr ⟨h1, by rw [← hc1] at hg; exact hg⟩, hs, ?_⟩
    rw [hr]
    unfold UTube.fluidHeat
    rw [hsum fun u => |m| * cp * (t.par m cp).outB (edges t.H Tb.toList.length q) u, hc2]
    simp only [hc3]
  · obtain ⟨⟨A, B⟩, hc1, hc2, hc3⟩ := hfl (count Tb.toList.length q) (edges t.H Tb.toList.length q)
    dsimp only at hc2 hc3
    have hdet : IsUnit A.det := by
      rw [det_fin_one, hc2]
      exact isUnit_iff_ne_zero.mpr hne
    have hinv : A⁻¹ 0 0 = (A 0 0)⁻¹ := by
      have h3 := congrFun (congrFun (mul_nonsing_inv A hdet) 0) 0
      simp only [Matrix.mul_apply, Finset.univ_unique, Fin.default_eq_zero, Finset.sum_singleton, one_apply_eq] at h3
      exact eq_inv_of_mul_eq_one_right h3
    have hin : (ofUTube t m cp).inlet (count Tb.toList.length q) (edges t.H Tb.toList.length q) = some (A⁻¹, -(A⁻¹ * B)) := by
      unfold Tubes.inlet
      rw [hc1]
      dsimp only [Option.bind_some]
      rw [if_pos hdet]
    obtain ⟨r, hg, hs, hr⟩ := key (A⁻¹, -(A⁻¹ * B))
    refine ⟨r, _, (getInlet_iff _).mpr ⟨h1, by rw [← hin] at hg; exact hg⟩, hs, hr, ?_⟩
    unfold UTube.inletT
    rw [if_neg hne, hsum fun u => -((-(|m| * cp) + |m| * cp * (t.par m cp).outA)⁻¹ * (|m| * cp * (t.par m cp).outB (edges t.H Tb.toList.length q) u))]
    simp only [Matrix.neg_apply, Matrix.mul_apply, Finset.univ_unique, Fin.default_eq_zero, Finset.sum_singleton, hinv, hc2, hc3]

/-! ### Networks -/

/-- **C115** (networks).  A number for the wall temperatures is the same as that temperature in all segments; results for the network have the form of the first argument, results for the boreholes are
arrays with one value each; the inlet temperature returned for a heat extraction rate gives that rate. -/
theorem network_getters {ρ N : ℕ} (a : Matrix (Fin ρ) (Fin 1) ℝ × Matrix (Fin ρ) (Fin N) ℝ) (c d : Matrix (Fin 1) (Fin 1) ℝ × Matrix (Fin 1) (Fin N) ℝ) (x Tb : Py) (T : ℝ) :
    (netArray a x (.num T) = netArray a x (.arr (List.replicate N T)) ∧ netNumber c x (.num T) = netNumber c x (.arr (List.replicate N T))) ∧
    ((∃ r, netNumber c x Tb = .ok r) ↔ x.toList.length = 1 ∧ (Tb.tile N).length = N) ∧
    (∀ r, netNumber c x Tb = .ok r → SameForm x r) ∧
    (∀ r, netArray a x Tb = .ok r → r.isNum = false ∧ r.toList.length = ρ) ∧
    (netInlet c = some d → ∀ r, netNumber d x Tb = .ok r → netNumber c r Tb = .ok x) := by
  have hn : ∀ (c : Matrix (Fin 1) (Fin 1) ℝ × Matrix (Fin 1) (Fin N) ℝ) (x r : Py), netNumber c x Tb = .ok r ↔
      ∃ (u : Fin 1 → ℝ) (y : Fin N → ℝ), x.toList = List.ofFn u ∧ Tb.tile N = List.ofFn y ∧ r.toList = List.ofFn (c.1 *ᵥ u + c.2 *ᵥ y) ∧ r.isNum = x.isNum :=
    fun c x r => like_iff c x (.arr (Tb.tile N)) r
  refine ⟨⟨rfl, rfl⟩, ⟨?_, ?_⟩, ?_, ?_, ?_⟩
  · rintro ⟨r, hr⟩
    obtain ⟨u, y, hu, hy, -⟩ := (hn _ _ _).mp hr
    exact ⟨by simp [hu], by simp [hy]⟩
  · rintro ⟨h1, h2⟩
    obtain ⟨u, hu⟩ := exists_vec h1
    obtain ⟨y, hy⟩ := exists_vec h2
    obtain ⟨r, -, hr, hi⟩ := like_ofFn x (c.1 *ᵥ u + c.2 *ᵥ y) h1
    exact ⟨r, (hn _ _ _).mpr ⟨u, y, hu, hy, hr, hi⟩⟩
  · intro r hr
    obtain ⟨u, y, hu, hy, h1, h2⟩ := (hn _ _ _).mp hr
    exact ⟨h2.symm, by rw [hu, h1]; simp⟩
  · intro r hr
    unfold netArray at hr
    cases h : affine a x.toList (Tb.tile N) with
    | error e => rw [h] at hr; cases hr
    | ok v => rw [h] at hr; cases hr; exact ⟨rfl, by simp [Py.toList]⟩
  · intro hd r hr
    obtain ⟨u, y, hu, hy, h1, h2⟩ := (hn _ _ _).mp hr
    unfold netInlet at hd
    split_ifs at hd with hun
    cases hd
    refine (hn _ _ _).mpr ⟨_, y, h1, hy, ?_, h2.symm⟩
    rw [hu]
    congr 1
    rw [mulVec_add, mulVec_mulVec, mul_nonsing_inv _ hun, one_mulVec, mulVec_mulVec, Matrix.mul_neg, ← Matrix.mul_assoc, mul_nonsing_inv _ hun, Matrix.one_mul, neg_mulVec]
    simp

/-! ### Cases -/

/-- Two segments of a quarter and three quarters of the borehole at 5 degrees, and the number 5. -/
example (t : UTube) (m cp Tin : ℝ) (r : Py) :
    getOutlet (ofUTube t m cp) (.num Tin) (.arr [5, 5]) (some [1 / 4, 3 / 4]) = .ok r ↔ getOutlet (ofUTube t m cp) (.num Tin) (.num 5) none = .ok r :=
  (uniform_wall _ (uTube_uniform t m cp) (n := 2) (q := some [1 / 4, 3 / 4]) ⟨rfl, by norm_num⟩ 5 _).1 r

/-- Several U-tubes too. -/
example {n : ℕ} (c : Multi.Conn n ni ni) (Rd : Matrix (Multi.P n) (Multi.P n) ℝ) (e : Multi.Eig n) (H : ℝ) (Tin : Py) (l : List ℝ)
    (h : getHeat (ofMulti c Rd e H) Tin (.arr [5, 5, 5]) none = .ok (.arr l)) : getHeat (ofMulti c Rd e H) Tin (.num 5) none = .ok (.arr [l.sum]) :=
  (uniform_wall _ (multi_uniform c Rd e H) (n := 3) (q := none) (show 0 < 3 by norm_num) 5 _).2.2.2.2 l h

/-- A single U-tube returns a number for numbers, and an array for the heat extraction rates of the segments all the same. -/
example : (∃ y, getOutlet (ofUTube (UTube.sample true) 1 4) (.num 3) (.num 5) none = .ok (.num y)) ∧ ∀ y, getHeat (ofUTube (UTube.sample true) 1 4) (.num 3) (.num 5) none ≠ .ok (.num y) := by
  refine ⟨?_, heat_never_number _ _ _ _⟩
  obtain ⟨x, -, ⟨r, hr, hs, -⟩, -⟩ := uTube_values (UTube.sample_valid true) (m := 1) (cp := 4) one_ne_zero (by norm_num) (Tin := .num 3) (Tb := .num 5) (q := none) rfl (by simp [Segments, Py.toList])
  cases r with
  | num y => exact ⟨y, hr⟩
  | arr l => cases hs.1

/-- Three independent U-tubes: a number for the inlet temperature raises. -/
example (Rd : Matrix (Multi.P 3) (Multi.P 3) ℝ) (e : Multi.Eig 3) (r : Py) :
    getOutlet (ofMulti (Multi.independent 3 true (fun _ => 1) (fun _ => 4)) Rd e 100) (.num 3) (.num 5) none ≠ .ok r := (several_circuits_raise _ (by norm_num) _ _ _ r).1

end Verif.Pipe.Get
