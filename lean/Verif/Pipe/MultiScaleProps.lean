import Verif.Pipe.MultiOneProps
import Verif.Pipe.ScaleProps
import Mathlib.Analysis.Normed.Algebra.MatrixExponential

/-!
# Several U-tubes with all lengths and conductances scaled

Lengths are multiplied by `c`, conductances per unit length by `κ`, and the flow rate by `κ c`, as in `ScaleProps`.  The decompositions found by `np.linalg.eig` for the two boreholes need not
be related: the coefficients only depend on the matrix.
-/

noncomputable section

namespace Verif.Pipe.Multi

open Matrix

variable {n k : ℕ}

/-- The general solution is the exponential of the matrix. -/
theorem cF0_exp {e : Eig n} {A : Matrix (P n) (P n) ℝ} (h : e.Of A) (z : ℝ) :
    cF0 e z = NormedSpace.exp ((z : ℂ) • (A.map (↑) : Matrix (P n) (P n) ℂ)) := by
  have hV : e.V⁻¹ = e.Vm1 := Matrix.inv_eq_right_inv h.inv
  have hu : IsUnit e.V := (Matrix.isUnit_iff_isUnit_det _).mpr (Matrix.isUnit_det_of_right_inverse h.inv)
  have hA : (z : ℂ) • (A.map (↑) : Matrix (P n) (P n) ℂ) = e.V * diagonal (fun k => (z : ℂ) * e.L k) * e.V⁻¹ := by
    have h1 : diagonal (fun k => (z : ℂ) * e.L k) = (z : ℂ) • diagonal e.L := by
      rw [← diagonal_smul]; rfl
    rw [h1, Matrix.mul_smul, Matrix.smul_mul, ← h.eig, Matrix.mul_assoc, hV, h.inv, Matrix.mul_one]
  rw [hA, Matrix.exp_conj _ _ hu, Matrix.exp_diagonal, hV]
  unfold cF0
  congr 3
  funext k
  rw [Pi.coe_exp, Complex.exp_eq_exp_ℂ]

theorem genF0_scaled {c : ℝ} (hc : 0 < c) {e e' : Eig n} {A A' : Matrix (P n) (P n) ℝ} (h : e.Of A) (h' : e'.Of A') (hA : A' = c⁻¹ • A) (z : ℝ) :
    genF0 e' (c * z) = genF0 e z := by
  have hc' : (c : ℂ) ≠ 0 := by exact_mod_cast hc.ne'
  have key : cF0 e' (c * z) = cF0 e z := by
    rw [cF0_exp h, cF0_exp h']
    congr 1
    ext i j
    simp only [hA, Matrix.smul_apply, Matrix.map_apply, smul_eq_mul]
    push_cast
    field_simp
  ext i j
  rw [genF0_eq, genF0_eq, key]

theorem genB_scaled {c : ℝ} (hc : 0 < c) {e e' : Eig n} {A A' : Matrix (P n) (P n) ℝ} (h : e.Of A) (h' : e'.Of A') (hA : A' = c⁻¹ • A) (hL : ∀ k, e.L k ≠ 0) (hL' : ∀ k, e'.L k ≠ 0)
    (zu : ℕ → ℝ) (z : ℝ) (i : P n) (u : ℕ) : genB A' e' (fun j => c * zu j) (c * z) i u = genB A e zu z i u := by
  have hm : ∀ x, max (c * z - c * x) 0 = c * max (z - x) 0 := fun x => by
    rw [mul_max_of_nonneg _ _ hc.le, mul_zero, mul_sub]
  rw [genB_eq h hL, genB_eq h' hL']
  simp only [hm, genF0_scaled hc h h' hA]

/-- Matrix of the scaled borehole. -/
theorem odeA_scaled {c κ : ℝ} (hκ : 0 < κ) (Rd : Matrix (P n) (P n) ℝ) (mcp : P n → ℝ) :
    odeA (κ⁻¹ • Rd) (fun i => κ * c * mcp i) = c⁻¹ • odeA Rd mcp := by
  have h : ∀ R w : ℝ, 1 / (κ⁻¹ * R * (κ * c * w)) = c⁻¹ * (1 / (R * w)) := by
    intro R w
    rw [show κ⁻¹ * R * (κ * c * w) = (κ⁻¹ * κ) * (c * (R * w)) by ring, inv_mul_cancel₀ hκ.ne', one_mul, one_div, mul_inv, one_div]
  ext i j
  simp only [odeA, Matrix.smul_apply, smul_eq_mul, h, ← Finset.mul_sum]
  split <;> ring

/-! ### Connections -/

section conn
variable {g : ℝ} (hg : 0 < g)
include hg

theorem reversed_scaled (reversible : Bool) (m : ℝ) : reversed reversible (g * m) = reversed reversible m := by
  have h : g * m < 0 ↔ m < 0 := ⟨fun h => by by_contra h1; exact absurd h (not_lt.mpr (mul_nonneg hg.le (not_lt.mp h1))), fun h => mul_neg_of_pos_of_neg hg h⟩
  unfold reversed
  simp only [h]

theorem pipeFlow_scaled (c : Config) (n : ℕ) (m : ℝ) : pipeFlow c n (g * m) = g * pipeFlow c n m := by
  cases c <;> simp only [pipeFlow, abs_mul, abs_of_pos hg]
  ring

theorem sign_scaled (m : ℝ) : Real.sign (g * m) = Real.sign m := by
  rcases lt_trichotomy m 0 with h | h | h
  · rw [Real.sign_of_neg h, Real.sign_of_neg (mul_neg_of_pos_of_neg hg h)]
  · rw [h, mul_zero]
  · rw [Real.sign_of_pos h, Real.sign_of_pos (mul_pos hg h)]

theorem mFlowPipe_scaled (c : Config) (n : ℕ) (m : ℝ) (i : P n) : mFlowPipe c n (g * m) i = g * mFlowPipe c n m i := by
  cases i <;> simp only [mFlowPipe, pipeFlow_scaled hg, sign_scaled hg] <;> ring

theorem headOut_scaled (c : Config) (n : ℕ) (m cp : ℝ) (rev : Bool) : headOut c n (g * m) cp rev = headOut c n m cp rev := by
  ext i j
  cases c <;> simp only [headOut]
  simp only [mFlowPipe_scaled hg, abs_mul, abs_of_pos hg, mul_assoc, ← Finset.mul_sum]
  exact mul_div_mul_left _ _ hg.ne'

theorem multiple_scaled (c : Config) (n : ℕ) (reversible : Bool) (m cp : ℝ) :
    multiple c n reversible (g * m) cp =
      { multiple c n reversible m cp with mcp := fun i => g * (multiple c n reversible m cp).mcp i, mcpIn := fun i => g * (multiple c n reversible m cp).mcpIn i } := by
  unfold multiple
  simp only [reversed_scaled hg, headOut_scaled hg, mFlowPipe_scaled hg, abs_mul, abs_of_pos hg, mul_assoc]

omit hg in
theorem flowing_scaled (hg : 0 < g) {reversible : Bool} {m cp : ℝ} (h : Flowing n reversible m cp) : Flowing n reversible (g * m) cp :=
  ⟨h.hn, mul_ne_zero hg.ne' h.hm, h.hcp, h.dir.imp_left (mul_pos hg)⟩

end conn

theorem circuit_scaled {κ : ℝ} (hκ : 0 < κ) {Rd : Matrix (P n) (P n) ℝ} (h : Circuit Rd) : Circuit (κ⁻¹ • Rd) :=
  ⟨fun i j => mul_pos (inv_pos.mpr hκ) (h.pos i j), by unfold IsSymm; rw [transpose_smul, h.symm]⟩

/-! ### Coefficients -/

/-- Coefficients of the outlet temperature and of the heat extraction rates of two boreholes of which one is the other on another scale. -/
theorem bore_scaled {ni no : ℕ} {c g : ℝ} {b b' : Bore n ni no k} (hconn : b'.conn = { b.conn with mcp := fun i => g * b.conn.mcp i, mcpIn := fun i => g * b.conn.mcpIn i })
    (hf0 : ∀ z, b'.f0 (c * z) = b.f0 z) (hfb : ∀ z, b'.fb (c * z) = b.fb z) (hH : b'.H = c * b.H) (zu : ℕ → ℝ) :
    b'.outletCoef = b.outletCoef ∧ ∀ v, b'.heatCoef (fun j => c * zu j) v = (b.heatCoef zu v).map fun q => (fun i => g * q.1 i, fun s => g * q.2 s) := by
  have hB : b'.B = b.B := by unfold Bore.B; rw [hconn]
  have hS : b'.upSolve = b.upSolve := by unfold Bore.upSolve; rw [hH, hf0, hB]
  have hT : ∀ z, b'.tempCoef (c * z) = b.tempCoef z := by
    intro z; unfold Bore.tempCoef; rw [hS, hH, hf0, hfb, hf0, hfb, hB, hconn]
  have hv : ∀ {ι : Type} (M : Matrix (P n) ι ℝ), b'.conn.mcp ᵥ* M = fun i => g * (b.conn.mcp ᵥ* M) i := by
    intro ι M
    rw [hconn]
    funext i
    simp only [Matrix.vecMul, dotProduct, Finset.mul_sum, mul_assoc]
  constructor
  · unfold Bore.outletCoef; rw [hS, hH, hf0, hfb, hconn]
  · intro v
    unfold Bore.heatCoef
    rw [hT, hT]
    cases b.tempCoef (zu (v + 1)) with
    | none => rfl
    | some c1 =>
      cases b.tempCoef (zu v) with
      | none => rfl
      | some c0 => simp only [Option.bind_some, Option.map_some, hv]

/-- **C126** (several U-tubes).  With lengths multiplied by `c`, thermal resistances divided by `κ` and flow rate multiplied by `κ c`: the coefficients of the outlet temperature are the same
and those of the heat extraction rates are multiplied by `κ c`, whatever decompositions the eigenvalue routine finds for the two matrices. -/
theorem multiple_coef_scaled {Rd : Matrix (P n) (P n) ℝ} (hR : Circuit Rd) {cfg : Config} {reversible : Bool} {m cp : ℝ} (hf : Flowing n reversible m cp) {c κ : ℝ} (hc : 0 < c) (hκ : 0 < κ)
    {e e' : Eig n} (he : e.Of (odeA Rd (multiple cfg n reversible m cp).mcp)) (he' : e'.Of (odeA (κ⁻¹ • Rd) (multiple cfg n reversible (κ * c * m) cp).mcp)) (zu : ℕ → ℝ) (H : ℝ) :
    (mkBore k (multiple cfg n reversible (κ * c * m) cp) (κ⁻¹ • Rd) e' (fun j => c * zu j) (c * H)).outletCoef = (mkBore k (multiple cfg n reversible m cp) Rd e zu H).outletCoef ∧
    ∀ v, (mkBore k (multiple cfg n reversible (κ * c * m) cp) (κ⁻¹ • Rd) e' (fun j => c * zu j) (c * H)).heatCoef (fun j => c * zu j) v =
      ((mkBore k (multiple cfg n reversible m cp) Rd e zu H).heatCoef zu v).map fun q => (fun i => κ * c * q.1 i, fun s => κ * c * q.2 s) := by
  have hg : 0 < κ * c := mul_pos hκ hc
  have hmcp : (multiple cfg n reversible (κ * c * m) cp).mcp = fun i => κ * c * (multiple cfg n reversible m cp).mcp i := by rw [multiple_scaled hg]
  have hA : odeA (κ⁻¹ • Rd) (multiple cfg n reversible (κ * c * m) cp).mcp = c⁻¹ • odeA Rd (multiple cfg n reversible m cp).mcp := by rw [hmcp, odeA_scaled hκ]
  refine bore_scaled (multiple_scaled hg cfg n reversible m cp) (fun z => genF0_scaled hc he he' hA z) (fun z => ?_) rfl zu
  funext i u
  exact genB_scaled hc he he' hA (multiple_eig_ne hR hf he) (multiple_eig_ne (circuit_scaled hκ hR) (flowing_scaled hg hf) he') zu z i u

/-! ### Borehole models of a network -/

/-- Coefficients that a network obtains from a borehole with several U-tubes, with an eigenvalue routine `E`.  Without flow and for the flow directions that the class does not support the
coefficients are not specified by the code (here 0); otherwise no error is raised (`netPipe_represents`). -/
def netPipe (E : Matrix (P n) (P n) ℝ → Eig n) (cfg : Config) (reversible : Bool) (Rd : Matrix (P n) (P n) ℝ) (zu : ℕ → ℝ) (H : ℝ) (k : ℕ) : Net.Pipe k :=
  let b := fun m cp => mkBore k (multiple cfg n reversible m cp) Rd (E (odeA Rd (multiple cfg n reversible m cp).mcp)) zu H
  open Classical in
  { outA := fun m cp => if Flowing n reversible m cp then ((b m cp).outletCoef.map fun q => q.1 0 0).getD 0 else 0
    outB := fun m cp s => if Flowing n reversible m cp then ((b m cp).outletCoef.map fun q => q.2 0 s).getD 0 else 0
    heatA := fun m cp v => if Flowing n reversible m cp then (((b m cp).heatCoef zu v).map fun q => q.1 0).getD 0 else 0
    heatB := fun m cp v s => if Flowing n reversible m cp then (((b m cp).heatCoef zu v).map fun q => q.2 s).getD 0 else 0 }

/-- Contract of the eigenvalue routine: it decomposes every matrix that can be decomposed. -/
def Decomposes (E : Matrix (P n) (P n) ℝ → Eig n) : Prop := ∀ A, (∃ e : Eig n, e.Of A) → (E A).Of A

theorem decomposes_exists (n : ℕ) : ∃ E : Matrix (P n) (P n) ℝ → Eig n, Decomposes E := by
  classical
  refine ⟨fun A => if h : ∃ e : Eig n, e.Of A then h.choose else ⟨0, 0, 0⟩, fun A h => ?_⟩
  simp only [dif_pos h]
  exact h.choose_spec

/-- The coefficients are those of the borehole. -/
theorem netPipe_represents {E : Matrix (P n) (P n) ℝ → Eig n} (hE : Decomposes E) {cfg : Config} {reversible : Bool} {Rd : Matrix (P n) (P n) ℝ} (hR : Circuit Rd) {m cp : ℝ}
    (hf : Flowing n reversible m cp) (zu : ℕ → ℝ) {H : ℝ} (hH : 0 < H) (k : ℕ) :
    Represents (mkBore k (multiple cfg n reversible m cp) Rd (E (odeA Rd (multiple cfg n reversible m cp).mcp)) zu H) zu (netPipe E cfg reversible Rd zu H k) m cp := by
  obtain ⟨p, hp1, hp2⟩ := represents_exists (k := k) (zu := zu) hR hf (hE _ (eig_exists hR (multiple cfg n reversible m cp).mcp)) hH
  constructor
  · simp only [netPipe, if_pos hf, hp1]
    rfl
  · intro v
    simp only [netPipe, if_pos hf, hp2, Option.map_some, Option.getD_some]

theorem netPipe_scaled {E : Matrix (P n) (P n) ℝ → Eig n} (hE : Decomposes E) {cfg : Config} {reversible : Bool} {Rd : Matrix (P n) (P n) ℝ} (hR : Circuit Rd) {c κ : ℝ} (hc : 0 < c) (hκ : 0 < κ)
    (zu : ℕ → ℝ) (H : ℝ) (k : ℕ) :
    (netPipe E cfg reversible Rd zu H k).Scaled (κ * c) (netPipe E cfg reversible (κ⁻¹ • Rd) (fun j => c * zu j) (c * H) k) := by
  have hg : 0 < κ * c := mul_pos hκ hc
  have hiff : ∀ m cp, Flowing n reversible (κ * c * m) cp ↔ Flowing n reversible m cp := fun m cp =>
    ⟨fun h => by
      have := flowing_scaled (inv_pos.mpr hg) h
      rwa [inv_mul_cancel_left₀ hg.ne'] at this, flowing_scaled hg⟩
  have key : ∀ m cp, Flowing n reversible m cp → _ := fun m cp hf =>
    multiple_coef_scaled (k := k) hR hf hc hκ (hE _ (eig_exists hR (multiple cfg n reversible m cp).mcp)) (hE _ (eig_exists (circuit_scaled hκ hR) (multiple cfg n reversible (κ * c * m) cp).mcp)) zu H
  constructor
  · intro m cp
    by_cases hf : Flowing n reversible m cp
    · have hf' := (hiff m cp).mpr hf
      simp only [netPipe, if_pos hf, if_pos hf', (key m cp hf).1]
    · have hf' : ¬ Flowing n reversible (κ * c * m) cp := fun h => hf ((hiff m cp).mp h)
      simp only [netPipe, if_neg hf, if_neg hf']
  · intro m cp s
    by_cases hf : Flowing n reversible m cp
    · have hf' := (hiff m cp).mpr hf
      simp only [netPipe, if_pos hf, if_pos hf', (key m cp hf).1]
    · have hf' : ¬ Flowing n reversible (κ * c * m) cp := fun h => hf ((hiff m cp).mp h)
      simp only [netPipe, if_neg hf, if_neg hf']
  · intro m cp v
    by_cases hf : Flowing n reversible m cp
    · have hf' := (hiff m cp).mpr hf
      simp only [netPipe, if_pos hf, if_pos hf', (key m cp hf).2]
      cases (mkBore k (multiple cfg n reversible m cp) Rd (E (odeA Rd (multiple cfg n reversible m cp).mcp)) zu H).heatCoef zu v <;> simp
    · have hf' : ¬ Flowing n reversible (κ * c * m) cp := fun h => hf ((hiff m cp).mp h)
      simp only [netPipe, if_neg hf, if_neg hf', mul_zero]
  · intro m cp v s
    by_cases hf : Flowing n reversible m cp
    · have hf' := (hiff m cp).mpr hf
      simp only [netPipe, if_pos hf, if_pos hf', (key m cp hf).2]
      cases (mkBore k (multiple cfg n reversible m cp) Rd (E (odeA Rd (multiple cfg n reversible m cp).mcp)) zu H).heatCoef zu v <;> simp
    · have hf' : ¬ Flowing n reversible (κ * c * m) cp := fun h => hf ((hiff m cp).mp h)
      simp only [netPipe, if_neg hf, if_neg hf', mul_zero]

end Verif.Pipe.Multi
