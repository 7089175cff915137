import Verif.Pipe.MultiLemmas

/-! # Boundary value problem of the borehole with several U-tubes: helper theorems -/

noncomputable section

namespace Verif.Pipe.Multi

open Matrix Set

variable {n ni no k : ℕ}

/-- Pipe of U-tube `i` in which the fluid flows down / up. -/
def downPipe (rev : Fin n → Bool) (i : Fin n) : P n := if rev i then .inr i else .inl i
def upPipe (rev : Fin n → Bool) (i : Fin n) : P n := if rev i then .inl i else .inr i

/-- Specification of the temperature profiles `T` of the fluid in the pipes and of the outlet
temperatures, with the boundary conditions at the head in matrix form. -/
structure Sol (c : Conn n ni no) (Rd : Matrix (P n) (P n) ℝ) (zu : ℕ → ℝ) (H : ℝ) (Tin : Fin ni → ℝ) (Tb : Fin k → ℝ)
    (T : ℝ → P n → ℝ) (Tout : Fin no → ℝ) : Prop where
  ode : ∀ v : Fin k, ∀ z ∈ Ioo (zu v) (zu (v + 1)), ∀ i,
    HasDerivAt (fun z => T z i) (pipeFlux Rd (T z) (Tb v) i / c.mcp i) z
  cont : ∀ i, ContinuousOn (fun z => T z i) (Icc 0 H)
  bottom : ∀ i, T H (.inl i) = T H (.inr i)
  head : ∃ X, T 0 = c.fd *ᵥ (c.cin *ᵥ Tin + c.cfu *ᵥ X) + c.fu *ᵥ X ∧ Tout = c.dfu *ᵥ X

theorem ImI_mulVec (x : P n → ℝ) (i : Fin n) : (ImI n *ᵥ x) i = x (.inl i) - x (.inr i) := by
  unfold ImI
  rw [Matrix.fromCols_mulVec]
  simp only [Matrix.one_mulVec, Matrix.neg_mulVec, Pi.add_apply, Pi.neg_apply, Function.comp]
  ring

namespace Bore
variable (b : Bore n ni no k)

/-- Upward temperatures at the head. -/
def X (S : Matrix (Fin n) (P n) ℝ) (Tin : Fin ni → ℝ) (Tb : Fin k → ℝ) : Fin n → ℝ :=
  S *ᵥ (b.f0 b.H *ᵥ (b.conn.fd *ᵥ (b.conn.cin *ᵥ Tin)) + b.fb b.H *ᵥ Tb)

/-- Temperatures at the head. -/
def T0 (S : Matrix (Fin n) (P n) ℝ) (Tin : Fin ni → ℝ) (Tb : Fin k → ℝ) : P n → ℝ :=
  b.conn.fd *ᵥ (b.conn.cin *ᵥ Tin) + b.B *ᵥ b.X S Tin Tb

theorem temperature_form {S} (hS : b.upSolve = some S) (Tin : Fin ni → ℝ) (Tb : Fin k → ℝ) (z : ℝ) :
    b.temperature Tin Tb z = some (b.f0 z *ᵥ b.T0 S Tin Tb + b.fb z *ᵥ Tb) := by
  unfold temperature tempCoef
  rw [hS]
  simp only [Option.map_some, Option.some.injEq]
  unfold T0 X
  simp only [Matrix.mulVec_add, Matrix.add_mulVec, ← Matrix.mulVec_mulVec, Matrix.one_mulVec]
  abel

theorem outlet_form {S} (hS : b.upSolve = some S) (Tin : Fin ni → ℝ) (Tb : Fin k → ℝ) :
    b.outletT Tin Tb = some (b.conn.dfu *ᵥ b.X S Tin Tb) := by
  unfold outletT outletCoef
  rw [hS]
  simp only [Option.map_some, Option.some.injEq]
  unfold X
  simp only [Matrix.mulVec_add, ← Matrix.mulVec_mulVec]

theorem upSolve_some {S} (hS : b.upSolve = some S) :
    IsUnit (ImI n * b.f0 b.H * b.B).det ∧ S = (ImI n * b.f0 b.H * b.B)⁻¹ * -ImI n := by
  unfold upSolve solve at hS
  split_ifs at hS with h
  · exact ⟨h, by simpa using hS.symm⟩

theorem bottom_form {S} (hS : b.upSolve = some S) (Tin : Fin ni → ℝ) (Tb : Fin k → ℝ) :
    ImI n *ᵥ (b.f0 b.H *ᵥ b.T0 S Tin Tb + b.fb b.H *ᵥ Tb) = 0 := by
  obtain ⟨hu, hSe⟩ := b.upSolve_some hS
  have h1 : ImI n * b.f0 b.H * b.B * S = -ImI n := by
    rw [hSe, ← Matrix.mul_assoc, Matrix.mul_nonsing_inv _ hu, Matrix.one_mul]
  unfold T0 X
  obtain ⟨y, hy⟩ : ∃ y, y = b.f0 b.H *ᵥ (b.conn.fd *ᵥ (b.conn.cin *ᵥ Tin)) + b.fb b.H *ᵥ Tb := ⟨_, rfl⟩
  rw [← hy]
  have h2 : ImI n *ᵥ (b.f0 b.H *ᵥ (b.B *ᵥ (S *ᵥ y))) = -(ImI n *ᵥ y) := by
    rw [Matrix.mulVec_mulVec, Matrix.mulVec_mulVec, Matrix.mulVec_mulVec, h1,
      Matrix.neg_mulVec]
  rw [Matrix.mulVec_add, Matrix.mulVec_add, Matrix.mulVec_add, h2]
  rw [hy, Matrix.mulVec_add]
  abel

end Bore

variable {c : Conn n ni no} {Rd : Matrix (P n) (P n) ℝ} {e : Eig n} {zu : ℕ → ℝ} {H : ℝ}

/-- The profile returned solves the boundary value problem. -/
theorem mk_solves (he : e.Of (odeA Rd c.mcp)) (hL : ∀ k, e.L k ≠ 0) (hz : Edges zu k H) {S}
    (hS : (mkBore k c Rd e zu H).upSolve = some S) (Tin : Fin ni → ℝ) (Tb : Fin k → ℝ) :
    Sol c Rd zu H Tin Tb (fun z => (mkBore k c Rd e zu H).f0 z *ᵥ (mkBore k c Rd e zu H).T0 S Tin Tb
      + (mkBore k c Rd e zu H).fb z *ᵥ Tb) (c.dfu *ᵥ (mkBore k c Rd e zu H).X S Tin Tb) := by
  obtain ⟨b, hb⟩ : ∃ b, b = mkBore k c Rd e zu H := ⟨_, rfl⟩
  rw [← hb] at hS ⊢
  have hf0 : b.f0 = genF0 e := by rw [hb]; rfl
  have hfb : ∀ z i (u : Fin k), b.fb z i u = genB (odeA Rd c.mcp) e zu z i u := by intro z i u; rw [hb]; rfl
  have hc : b.conn = c := by rw [hb]; rfl
  have hH : b.H = H := by rw [hb]; rfl
  refine ⟨?_, ?_, ?_, ?_⟩
  · intro v z hzv i
    have hd1 : HasDerivAt (fun z => ∑ j, b.f0 z i j * b.T0 S Tin Tb j)
        (∑ j, (odeA Rd c.mcp * b.f0 z) i j * b.T0 S Tin Tb j) z := by
      rw [hf0]
      exact HasDerivAt.fun_sum fun j _ => (genF0_deriv he z i j).mul_const _
    have hd2 : HasDerivAt (fun z => ∑ u, b.fb z i u * Tb u)
        (∑ u : Fin k, ((odeA Rd c.mcp *ᵥ fun j => b.fb z j u) i - if (u : ℕ) = v then sumA (odeA Rd c.mcp) i else 0) * Tb u) z := by
      refine HasDerivAt.fun_sum fun u _ => HasDerivAt.mul_const ?_ _
      simp only [hfb]
      exact genB_deriv he hL hz.mono v.2 u.2 hzv i
    have hd := hd1.add hd2
    refine HasDerivAt.congr_deriv hd ?_
    rw [← odeA_flux, Matrix.mulVec_add]
    have e1 : ∑ j, (odeA Rd c.mcp * b.f0 z) i j * b.T0 S Tin Tb j = (odeA Rd c.mcp *ᵥ (b.f0 z *ᵥ b.T0 S Tin Tb)) i := by
      rw [Matrix.mulVec_mulVec]; rfl
    have e2 : ∑ u : Fin k, (odeA Rd c.mcp *ᵥ fun j => b.fb z j u) i * Tb u = (odeA Rd c.mcp *ᵥ (b.fb z *ᵥ Tb)) i := by
      rw [Matrix.mulVec_mulVec]
      simp only [Matrix.mulVec, dotProduct, Matrix.mul_apply]
    have e3 : ∑ u : Fin k, (if (u : ℕ) = v then sumA (odeA Rd c.mcp) i else 0) * Tb u = sumA (odeA Rd c.mcp) i * Tb v := by
      rw [Finset.sum_eq_single v]
      · simp
      · intro u _ huv
        rw [if_neg (fun h => huv (Fin.ext h)), zero_mul]
      · simp
    simp only [sub_mul, Finset.sum_sub_distrib]
    rw [e1, e2, e3, Pi.add_apply]
    ring
  · intro i
    have c1 : Continuous fun z => ∑ j, b.f0 z i j * b.T0 S Tin Tb j := by
      refine continuous_finsetSum _ fun j _ => Continuous.mul (f := fun z => b.f0 z i j) ?_ continuous_const
      rw [hf0]
      exact genF0_continuous he i j
    have c2 : Continuous fun z => ∑ u, b.fb z i u * Tb u := by
      refine continuous_finsetSum _ fun u _ => Continuous.mul (f := fun z => b.fb z i u) ?_ continuous_const
      simp only [hfb]
      exact genB_continuous he hL zu i u
    exact (c1.add c2).continuousOn
  · intro i
    have := congrFun (b.bottom_form hS Tin Tb) i
    rw [ImI_mulVec, hH] at this
    simpa [sub_eq_zero] using this
  · refine ⟨b.X S Tin Tb, ?_, rfl⟩
    have h0 : b.f0 0 = 1 := by rw [hf0]; exact genF0_zero he
    have h1 : b.fb 0 = 0 := by
      ext i u
      rw [hfb]
      have hnn : ∀ j ≤ k, 0 ≤ zu j := fun j hj => by rw [← hz.zero]; exact hz.mono 0 j (Nat.zero_le _) hj
      exact genB_zero he hL zu i u (hnn u u.2.le) (hnn (u + 1) u.2)
    simp only [h0, h1, Matrix.one_mulVec, Matrix.zero_mulVec, add_zero]
    unfold Bore.T0 Bore.B
    rw [hc, Matrix.add_mulVec, Matrix.mulVec_add, ← Matrix.mulVec_mulVec]
    abel

/-- Difference of two temperature profiles. -/
theorem pipeFlux_sub (T T' : P n → ℝ) (Tw : ℝ) (i : P n) :
    pipeFlux Rd T Tw i - pipeFlux Rd T' Tw i = pipeFlux Rd (fun j => T j - T' j) 0 i := by
  unfold pipeFlux
  rw [add_sub_add_comm, ← Finset.sum_sub_distrib]
  congr 1
  · ring
  · exact Finset.sum_congr rfl fun j _ => by ring

/-- A solution of the homogeneous equation is carried by the general solution. -/
theorem homogeneous (he : e.Of (odeA Rd c.mcp)) (hz : Edges zu k H) (D : ℝ → P n → ℝ)
    (hode : ∀ v < k, ∀ z ∈ Ioo (zu v) (zu (v + 1)), ∀ i, HasDerivAt (fun z => D z i) (pipeFlux Rd (D z) 0 i / c.mcp i) z)
    (hcont : ∀ i, ContinuousOn (fun z => D z i) (Icc 0 H)) (z : ℝ) (hzH : z ∈ Icc 0 H) :
    D z = genF0 e z *ᵥ D 0 := by
  have hode' : ∀ v < k, ∀ z ∈ Ioo (zu v) (zu (v + 1)), ∀ i, HasDerivAt (fun z => D z i) ((odeA Rd c.mcp *ᵥ D z) i) z := by
    intro v hv z hzv i
    refine (hode v hv z hzv i).congr_deriv ?_
    rw [← odeA_flux, mul_zero, sub_zero]
  -- modal amplitudes
  obtain ⟨y, hy⟩ : ∃ y : P n → ℝ → ℂ, y = fun k (z : ℝ) => Complex.exp (-(z * e.L k)) * ∑ j, e.Vm1 k j * (D z j : ℂ) := ⟨_, rfl⟩
  have hyd : ∀ m, ∀ v < k, ∀ z ∈ Ioo (zu v) (zu (v + 1)), HasDerivAt (y m) 0 z := by
    intro m v hv z hzv
    have h1 : HasDerivAt (fun z : ℝ => Complex.exp (-((z : ℂ) * e.L m))) (Complex.exp (-(z * e.L m)) * -(1 * e.L m)) z :=
      (((Complex.ofRealCLM.hasDerivAt (x := z)).mul_const (e.L m)).neg).cexp
    have h2 : HasDerivAt (fun z : ℝ => ∑ j, e.Vm1 m j * (D z j : ℂ)) (∑ j, e.Vm1 m j * (((odeA Rd c.mcp *ᵥ D z) j : ℝ) : ℂ)) z :=
      HasDerivAt.fun_sum fun j _ => (HasDerivAt.ofReal_comp (hode' v hv z hzv j)).const_mul _
    rw [hy]
    refine (h1.mul h2).congr_deriv ?_
    have h3 : ∑ j, e.Vm1 m j * (((odeA Rd c.mcp *ᵥ D z) j : ℝ) : ℂ) = e.L m * ∑ j, e.Vm1 m j * (D z j : ℂ) := by
      have h4 : ∀ j, ∑ l, e.Vm1 m l * (odeA Rd c.mcp l j : ℂ) = e.L m * e.Vm1 m j := by
        intro j
        have := congrFun (congrFun he.comm m) j
        rw [Matrix.diagonal_mul, Matrix.mul_apply] at this
        simpa using this
      simp only [Matrix.mulVec, dotProduct]
      push_cast
      simp only [Finset.mul_sum]
      rw [Finset.sum_comm]
      refine Finset.sum_congr rfl fun j _ => ?_
      rw [← mul_assoc, ← h4 j, Finset.sum_mul]
      exact Finset.sum_congr rfl fun l _ => by ring
    rw [h3]
    ring
  have hyc : ∀ m, ContinuousOn (y m) (Icc 0 H) := by
    intro m
    rw [hy]
    refine ContinuousOn.mul (Continuous.continuousOn (by fun_prop)) ?_
    exact continuousOn_finsetSum _ fun j _ => continuousOn_const.mul
      (Complex.continuous_ofReal.comp_continuousOn (hcont j))
  have hconst : ∀ m, y m z = y m 0 := by
    intro m
    apply Complex.ext
    · exact UPar.const_on_segments hz (fun z => (y m z).re) (Complex.continuous_re.comp_continuousOn (hyc m))
        (fun v hv w hw => by
          have := Complex.reCLM.hasFDerivAt.comp_hasDerivAt w (hyd m v hv w hw)
          exact HasDerivAt.congr_deriv this (by simp)) z hzH
    · exact UPar.const_on_segments hz (fun z => (y m z).im) (Complex.continuous_im.comp_continuousOn (hyc m))
        (fun v hv w hw => by
          have := Complex.imCLM.hasFDerivAt.comp_hasDerivAt w (hyd m v hv w hw)
          exact HasDerivAt.congr_deriv this (by simp)) z hzH
  have hmode : ∀ m, ∑ j, e.Vm1 m j * (D z j : ℂ) = Complex.exp (z * e.L m) * ∑ j, e.Vm1 m j * (D 0 j : ℂ) := by
    intro m
    have h1 := hconst m
    rw [hy] at h1
    simp only [Complex.ofReal_zero, zero_mul, neg_zero, Complex.exp_zero, one_mul] at h1
    rw [← h1, ← mul_assoc, ← Complex.exp_add]
    simp
  have hD : ∀ i, (D z i : ℂ) = ∑ m, e.V i m * (Complex.exp (z * e.L m) * ∑ j, e.Vm1 m j * (D 0 j : ℂ)) := by
    intro i
    rw [Finset.sum_congr rfl fun m _ => by rw [← hmode m]]
    have h1 : ∀ j, ∑ m, e.V i m * e.Vm1 m j = if i = j then 1 else 0 := by
      intro j
      rw [← Matrix.mul_apply, he.inv, Matrix.one_apply]
    simp only [Finset.mul_sum]
    rw [Finset.sum_comm]
    rw [Finset.sum_congr rfl fun j _ => show ∑ m, e.V i m * (e.Vm1 m j * (D z j : ℂ)) = (if i = j then 1 else 0) * (D z j : ℂ) by
      rw [← h1 j, Finset.sum_mul]; exact Finset.sum_congr rfl fun m _ => by ring]
    simp
  funext i
  have h1 := congrArg Complex.re (hD i)
  rw [Complex.ofReal_re] at h1
  rw [h1]
  simp only [Matrix.mulVec, dotProduct, genF0]
  simp only [Finset.mul_sum, Complex.re_sum, Finset.sum_mul]
  rw [Finset.sum_comm]
  refine Finset.sum_congr rfl fun j _ => Finset.sum_congr rfl fun m _ => ?_
  rw [← Complex.re_mul_ofReal]
  congr 1
  ring

/-- Uniqueness. -/
theorem sol_unique (he : e.Of (odeA Rd c.mcp)) (hz : Edges zu k H)
    (hu : IsUnit (ImI n * genF0 e H * (c.fu + c.fd * c.cfu)).det) {Tin : Fin ni → ℝ} {Tb : Fin k → ℝ}
    {T T' : ℝ → P n → ℝ} {Tout Tout' : Fin no → ℝ} (h : Sol c Rd zu H Tin Tb T Tout) (h' : Sol c Rd zu H Tin Tb T' Tout') :
    (∀ z ∈ Icc 0 H, T z = T' z) ∧ Tout = Tout' := by
  have hH : 0 ≤ H := by rw [← hz.last, ← hz.zero]; exact hz.mono 0 k (Nat.zero_le _) le_rfl
  have hom := homogeneous he hz (fun z i => T z i - T' z i)
    (fun v hv z hzv i => by
      refine ((h.ode ⟨v, hv⟩ z hzv i).sub (h'.ode ⟨v, hv⟩ z hzv i)).congr_deriv ?_
      rw [← sub_div, pipeFlux_sub])
    (fun i => (h.cont i).sub (h'.cont i))
  obtain ⟨X, hX, hO⟩ := h.head
  obtain ⟨X', hX', hO'⟩ := h'.head
  have h0 : (fun i => T 0 i - T' 0 i) = (c.fu + c.fd * c.cfu) *ᵥ (X - X') := by
    have : (fun i => T 0 i - T' 0 i) = T 0 - T' 0 := rfl
    rw [this, hX, hX', Matrix.mulVec_sub, Matrix.add_mulVec, Matrix.add_mulVec, Matrix.mulVec_add, Matrix.mulVec_add,
      ← Matrix.mulVec_mulVec, ← Matrix.mulVec_mulVec]
    abel
  have hbot : ImI n *ᵥ (fun i => T H i - T' H i) = 0 := by
    funext i
    rw [ImI_mulVec, h.bottom, h'.bottom]
    simp
  rw [hom H ⟨hH, le_rfl⟩, h0, Matrix.mulVec_mulVec, Matrix.mulVec_mulVec] at hbot
  have hXX : X - X' = 0 := by
    have := congrArg (fun v => (ImI n * genF0 e H * (c.fu + c.fd * c.cfu))⁻¹ *ᵥ v) hbot
    simpa [Matrix.mulVec_mulVec, Matrix.nonsing_inv_mul _ hu] using this
  refine ⟨fun z hzH => ?_, ?_⟩
  · have h1 := hom z hzH
    rw [h0, hXX, Matrix.mulVec_zero, Matrix.mulVec_zero] at h1
    funext i
    have := congrFun h1 i
    simp only [Pi.zero_apply] at this
    linarith
  · rw [hO, hO', sub_eq_zero.mp hXX]

/-! ### Flow directions -/

theorem sum_pipes (rev : Fin n → Bool) (g : P n → ℝ) : ∑ p, g p = ∑ i, (g (downPipe rev i) + g (upPipe rev i)) := by
  rw [Fintype.sum_sum_type, ← Finset.sum_add_distrib]
  refine Finset.sum_congr rfl fun i _ => ?_
  unfold downPipe upPipe
  cases rev i <;> simp [add_comm]

theorem dir_down (rev : Fin n → Bool) (a b : Fin n → ℝ) (i : Fin n) :
    (dirDown n rev *ᵥ a + dirUp n rev *ᵥ b) (downPipe rev i) = a i := by
  unfold downPipe
  simp only [Pi.add_apply, Matrix.mulVec, dotProduct]
  cases h : rev i
  · simp only [Bool.false_eq_true, if_false, dirDown, dirUp]
    rw [Finset.sum_eq_single i, Finset.sum_eq_zero]
    · simp [h]
    · intro j _
      by_cases hij : i = j
      · subst hij; simp [h]
      · simp [hij]
    · intro j _ hj; simp [Ne.symm hj]
    · simp
  · simp only [if_true, dirDown, dirUp]
    rw [Finset.sum_eq_single i, Finset.sum_eq_zero]
    · simp [h]
    · intro j _
      by_cases hij : i = j
      · subst hij; simp [h]
      · simp [hij]
    · intro j _ hj; simp [Ne.symm hj]
    · simp

theorem dir_up (rev : Fin n → Bool) (a b : Fin n → ℝ) (i : Fin n) :
    (dirDown n rev *ᵥ a + dirUp n rev *ᵥ b) (upPipe rev i) = b i := by
  unfold upPipe
  simp only [Pi.add_apply, Matrix.mulVec, dotProduct]
  cases h : rev i
  · simp only [Bool.false_eq_true, if_false, dirDown, dirUp]
    rw [Finset.sum_eq_zero, Finset.sum_eq_single i]
    · simp [h]
    · intro j _ hj; simp [Ne.symm hj]
    · simp
    · intro j _
      by_cases hij : i = j
      · subst hij; simp [h]
      · simp [hij]
  · simp only [if_true, dirDown, dirUp]
    rw [Finset.sum_eq_zero, Finset.sum_eq_single i]
    · simp [h]
    · intro j _ hj; simp [Ne.symm hj]
    · simp
    · intro j _
      by_cases hij : i = j
      · subst hij; simp [h]
      · simp [hij]

theorem bottom_pipes (rev : Fin n → Bool) (x : P n → ℝ) (h : ∀ i, x (.inl i) = x (.inr i)) (i : Fin n) :
    x (downPipe rev i) = x (upPipe rev i) := by
  unfold downPipe upPipe
  cases rev i
  · simpa using h i
  · simpa using (h i).symm

/-- The flow counted along the direction assumed by the model: `w i` down in one pipe, up in the other. -/
structure Aligned (c : Conn n ni no) (rev : Fin n → Bool) (w : Fin n → ℝ) : Prop where
  fd : c.fd = dirDown n rev
  fu : c.fu = dirUp n rev
  down : ∀ i, c.mcp (downPipe rev i) = w i
  up : ∀ i, c.mcp (upPipe rev i) = -w i

/-- The linear system of the head is regular if the circuit dissipates and flows are aligned. -/
theorem solve_regular (he : e.Of (odeA Rd c.mcp)) (hpos : ∀ i j, 0 < Rd i j) (hs : Rd.IsSymm) {rev : Fin n → Bool}
    {w : Fin n → ℝ} (ha : Aligned c rev w) (hw : ∀ i, 0 < w i) (hH : 0 < H)
    (hdiss : ∀ x : Fin n → ℝ, ∑ i, w i * ((c.cfu *ᵥ x) i ^ 2 - x i ^ 2) ≤ 0) :
    IsUnit (ImI n * genF0 e H * (c.fu + c.fd * c.cfu)).det := by
  rw [isUnit_iff_ne_zero]
  intro hdet
  obtain ⟨X, hX0, hX⟩ := Matrix.exists_mulVec_eq_zero_iff.mpr hdet
  have hmne : ∀ p, c.mcp p ≠ 0 := by
    intro p
    have h1 : ∀ i, p = downPipe rev i ∨ p = upPipe rev i → c.mcp p ≠ 0 := by
      rintro i (rfl | rfl)
      · rw [ha.down]; exact (hw i).ne'
      · rw [ha.up]; exact neg_ne_zero.mpr (hw i).ne'
    cases p with
    | inl i => exact h1 i (by unfold downPipe upPipe; cases rev i <;> simp)
    | inr i => exact h1 i (by unfold downPipe upPipe; cases rev i <;> simp)
  -- profile started from these temperatures
  obtain ⟨T, hT⟩ : ∃ T : ℝ → P n → ℝ, T = fun z => genF0 e z *ᵥ ((c.fu + c.fd * c.cfu) *ᵥ X) := ⟨_, rfl⟩
  have hTd : ∀ z i, HasDerivAt (fun z => T z i) (pipeFlux Rd (T z) 0 i / c.mcp i) z := by
    intro z i
    have h1 : HasDerivAt (fun z => ∑ j, genF0 e z i j * ((c.fu + c.fd * c.cfu) *ᵥ X) j)
        (∑ j, (odeA Rd c.mcp * genF0 e z) i j * ((c.fu + c.fd * c.cfu) *ᵥ X) j) z :=
      HasDerivAt.fun_sum fun j _ => (genF0_deriv he z i j).mul_const _
    rw [hT]
    refine h1.congr_deriv ?_
    rw [← odeA_flux, mul_zero, sub_zero, Matrix.mulVec_mulVec]
    rfl
  have hT0 : T 0 = c.fd *ᵥ (c.cfu *ᵥ X) + c.fu *ᵥ X := by
    rw [hT]
    simp only [genF0_zero he, Matrix.one_mulVec, Matrix.add_mulVec, Matrix.mulVec_mulVec]
    abel
  have hTH : ∀ i, T H (.inl i) = T H (.inr i) := by
    intro i
    have h1 : ImI n *ᵥ T H = 0 := by
      rw [hT]; simp only [Matrix.mulVec_mulVec, ← Matrix.mul_assoc]; exact hX
    have := congrFun h1 i
    rw [ImI_mulVec] at this
    simpa [sub_eq_zero] using this
  -- energy
  obtain ⟨E, hE⟩ : ∃ E : ℝ → ℝ, E = fun z => ∑ i, c.mcp i * T z i ^ 2 := ⟨_, rfl⟩
  have hEd : ∀ z, HasDerivAt E (2 * ∑ i, T z i * pipeFlux Rd (T z) 0 i) z := by
    intro z
    have : HasDerivAt (fun z => ∑ i, c.mcp i * T z i ^ 2)
        (∑ i, c.mcp i * (2 * T z i * (pipeFlux Rd (T z) 0 i / c.mcp i))) z := by
      refine HasDerivAt.fun_sum fun i _ => HasDerivAt.const_mul _ ?_
      have h1 : HasDerivAt (fun z => T z i * T z i) _ z := (hTd z i).mul (hTd z i)
      have h2 : (fun z => T z i ^ 2) = fun z => T z i * T z i := funext fun z => sq _
      rw [h2]
      refine h1.congr_deriv ?_
      ring
    rw [hE]
    refine this.congr_deriv ?_
    rw [Finset.mul_sum]
    refine Finset.sum_congr rfl fun i _ => ?_
    have := hmne i
    field_simp
  have hEneg : ∀ z, 2 * ∑ i, T z i * pipeFlux Rd (T z) 0 i ≤ -2 * ∑ i, T z i ^ 2 / Rd i i := by
    intro z
    rw [flux_dissipation Rd hs]
    have := (dissipation_nonneg Rd hpos (T z)).2
    linarith
  have hE0 : E 0 ≤ 0 := by
    rw [hE]
    simp only
    rw [sum_pipes rev]
    have : ∑ i, (c.mcp (downPipe rev i) * T 0 (downPipe rev i) ^ 2 + c.mcp (upPipe rev i) * T 0 (upPipe rev i) ^ 2)
        = ∑ i, w i * ((c.cfu *ᵥ X) i ^ 2 - X i ^ 2) := by
      refine Finset.sum_congr rfl fun i _ => ?_
      rw [ha.down, ha.up, hT0, ha.fd, ha.fu, dir_down, dir_up]
      ring
    rw [this]
    exact hdiss X
  have hEH : E H = 0 := by
    rw [hE]
    simp only
    rw [sum_pipes rev]
    refine Finset.sum_eq_zero fun i _ => ?_
    rw [ha.down, ha.up, bottom_pipes rev (T H) hTH i]
    ring
  have hant : AntitoneOn E (Icc 0 H) := by
    apply antitoneOn_of_deriv_nonpos (convex_Icc 0 H)
    · exact fun z _ => (hEd z).continuousAt.continuousWithinAt
    · exact fun z _ => (hEd z).differentiableAt.differentiableWithinAt
    · intro z _
      rw [(hEd z).deriv]
      have := hEneg z
      have := (dissipation_nonneg Rd hpos (T z)).1
      linarith
  have hEz : ∀ z ∈ Icc 0 H, E z = 0 := by
    intro z hz
    have h1 := hant ⟨le_rfl, hH.le⟩ hz hz.1
    have h2 := hant hz ⟨hH.le, le_rfl⟩ hz.2
    linarith
  have hTz : ∀ z ∈ Ioo 0 H, ∀ i, T z i = 0 := by
    intro z hz i
    have h1 : HasDerivAt E 0 z := by
      refine (hasDerivAt_const z (0 : ℝ)).congr_of_eventuallyEq ?_
      filter_upwards [Icc_mem_nhds hz.1 hz.2] with x hx using hEz x hx
    have h2 := h1.unique (hEd z)
    have h3 := hEneg z
    rw [← h2] at h3
    have h4 : ∑ i, T z i ^ 2 / Rd i i = 0 :=
      le_antisymm (by linarith) (dissipation_nonneg Rd hpos (T z)).1
    have h5 := (Finset.sum_eq_zero_iff_of_nonneg (fun i _ => div_nonneg (sq_nonneg _) (hpos i i).le)).mp h4 i (Finset.mem_univ i)
    have h6 := (div_eq_zero_iff.mp h5).resolve_right (hpos i i).ne'
    exact pow_eq_zero_iff (two_ne_zero) |>.mp h6
  have hT00 : ∀ i, T 0 i = 0 := by
    intro i
    have hcont : ContinuousAt (fun z => T z i) 0 := (hTd 0 i).continuousAt
    have h1 : Filter.Tendsto (fun z => T z i) (nhdsWithin 0 (Ioi 0)) (nhds (T 0 i)) := hcont.continuousWithinAt
    have h2 : Filter.Tendsto (fun z => T z i) (nhdsWithin 0 (Ioi 0)) (nhds 0) := by
      refine tendsto_const_nhds.congr' ?_
      filter_upwards [Ioo_mem_nhdsGT hH] with z hz using (hTz z hz i).symm
    exact tendsto_nhds_unique h1 h2
  apply hX0
  funext i
  have := hT00 (upPipe rev i)
  rw [hT0, ha.fd, ha.fu, dir_up] at this
  simpa using this

/-! ### Heat extraction rates -/

theorem segmentHeat_form (b : Bore n ni no k) {S} (hS : b.upSolve = some S) (zu : ℕ → ℝ) (Tin : Fin ni → ℝ) (Tb : Fin k → ℝ) (v : ℕ) :
    b.segmentHeat zu Tin Tb v = some (∑ i, b.conn.mcp i *
      ((b.f0 (zu (v + 1)) *ᵥ b.T0 S Tin Tb + b.fb (zu (v + 1)) *ᵥ Tb) i - (b.f0 (zu v) *ᵥ b.T0 S Tin Tb + b.fb (zu v) *ᵥ Tb) i)) := by
  have h1 := b.temperature_form hS Tin Tb (zu (v + 1))
  have h0 := b.temperature_form hS Tin Tb (zu v)
  unfold Bore.temperature at h1 h0
  unfold Bore.segmentHeat Bore.heatCoef
  cases hc1 : b.tempCoef (zu (v + 1)) with
  | none => rw [hc1] at h1; simp at h1
  | some c1 =>
    cases hc0 : b.tempCoef (zu v) with
    | none => rw [hc0] at h0; simp at h0
    | some c0 =>
      rw [hc1] at h1
      rw [hc0] at h0
      simp only [Option.map_some, Option.some.injEq] at h1 h0
      simp only [Option.bind_some, Option.map_some, Option.some.injEq]
      rw [← h1, ← h0, ← Matrix.dotProduct_mulVec, ← Matrix.dotProduct_mulVec, ← dotProduct_add]
      unfold dotProduct
      refine Finset.sum_congr rfl fun i _ => ?_
      rw [Matrix.sub_mulVec, Matrix.sub_mulVec]
      simp only [Pi.add_apply, Pi.sub_apply]
      ring

end Verif.Pipe.Multi
