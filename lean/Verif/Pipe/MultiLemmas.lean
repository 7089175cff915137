import Verif.Pipe.MultiModel
import Verif.Pipe.UTubeProps
import Mathlib.LinearAlgebra.Matrix.Gershgorin

/-! # Lemmas for `Verif.Pipe.MultiProps` -/

noncomputable section

namespace Verif.Pipe.Multi

open Matrix Set

variable {n : ℕ}

/-! ### Eigenvalue decomposition -/

theorem Eig.Of.inv' {e : Eig n} {A : Matrix (P n) (P n) ℝ} (h : e.Of A) : e.Vm1 * e.V = 1 :=
  mul_eq_one_comm.mp h.inv

theorem Eig.Of.comm {e : Eig n} {A : Matrix (P n) (P n) ℝ} (h : e.Of A) :
    e.Vm1 * A.map (↑) = diagonal e.L * e.Vm1 := by
  have h1 := congrArg (fun M => e.Vm1 * M * e.Vm1) h.eig
  simp only [Matrix.mul_assoc] at h1
  rw [h.inv, Matrix.mul_one, ← Matrix.mul_assoc (e.Vm1) e.V, h.inv', Matrix.one_mul] at h1
  exact h1

/-- Complex general solution. -/
def cF0 (e : Eig n) (z : ℝ) : Matrix (P n) (P n) ℂ := e.V * diagonal (fun k => Complex.exp (z * e.L k)) * e.Vm1

theorem genF0_eq (e : Eig n) (z : ℝ) (i j : P n) : genF0 e z i j = (cF0 e z i j).re := by
  unfold genF0 cF0
  rw [Matrix.mul_apply]
  congr 1
  exact Finset.sum_congr rfl fun k _ => by rw [Matrix.mul_diagonal]

theorem cF0_deriv {e : Eig n} {A : Matrix (P n) (P n) ℝ} (h : e.Of A) (z : ℝ) (i j : P n) :
    HasDerivAt (fun z => cF0 e z i j) ((A.map (↑) * cF0 e z : Matrix (P n) (P n) ℂ) i j) z := by
  have hk : ∀ k, HasDerivAt (fun z : ℝ => e.V i k * Complex.exp (z * e.L k) * e.Vm1 k j)
      (e.V i k * (e.L k * Complex.exp (z * e.L k)) * e.Vm1 k j) z := by
    intro k
    have h1 : HasDerivAt (fun z : ℝ => (z : ℂ) * e.L k) (1 * e.L k) z :=
      (Complex.ofRealCLM.hasDerivAt (x := z)).mul_const _
    have h2 := h1.cexp
    refine ((h2.const_mul (e.V i k)).mul_const (e.Vm1 k j)).congr_deriv ?_
    ring
  have hs : HasDerivAt (fun z : ℝ => ∑ k, e.V i k * Complex.exp (z * e.L k) * e.Vm1 k j)
      (∑ k, e.V i k * (e.L k * Complex.exp (z * e.L k)) * e.Vm1 k j) z :=
    HasDerivAt.fun_sum fun k _ => hk k
  have e1 : (fun z => cF0 e z i j) = fun z : ℝ => ∑ k, e.V i k * Complex.exp (z * e.L k) * e.Vm1 k j := by
    funext z
    unfold cF0
    rw [Matrix.mul_apply]
    exact Finset.sum_congr rfl fun k _ => by rw [Matrix.mul_diagonal]
  rw [e1]
  refine hs.congr_deriv ?_
  unfold cF0
  rw [← Matrix.mul_assoc, ← Matrix.mul_assoc, h.eig, Matrix.mul_assoc e.V, Matrix.diagonal_mul_diagonal, Matrix.mul_apply]
  exact Finset.sum_congr rfl fun k _ => by rw [Matrix.mul_diagonal]

theorem re_map_mul (A : Matrix (P n) (P n) ℝ) (M : Matrix (P n) (P n) ℂ) (i j : P n) :
    ((A.map (↑) * M : Matrix (P n) (P n) ℂ) i j).re = ∑ k, A i k * (M k j).re := by
  rw [Matrix.mul_apply, Complex.re_sum]
  exact Finset.sum_congr rfl fun k _ => by simp [Matrix.map_apply]

theorem genF0_deriv {e : Eig n} {A : Matrix (P n) (P n) ℝ} (h : e.Of A) (z : ℝ) (i j : P n) :
    HasDerivAt (fun z => genF0 e z i j) ((A * genF0 e z) i j) z := by
  have h1 := Complex.reCLM.hasFDerivAt.comp_hasDerivAt z (cF0_deriv h z i j)
  have e1 : (fun z => genF0 e z i j) = fun z => (cF0 e z i j).re := funext fun z => genF0_eq e z i j
  rw [e1]
  refine HasDerivAt.congr_deriv h1 ?_
  rw [Complex.reCLM_apply, re_map_mul, Matrix.mul_apply]
  exact Finset.sum_congr rfl fun k _ => by rw [genF0_eq]

theorem genF0_zero {e : Eig n} {A : Matrix (P n) (P n) ℝ} (h : e.Of A) : genF0 e 0 = 1 := by
  ext i j
  rw [genF0_eq]
  unfold cF0
  simp only [Complex.ofReal_zero, zero_mul, Complex.exp_zero, diagonal_one, Matrix.mul_one, h.inv]
  rw [Matrix.one_apply, Matrix.one_apply]
  split_ifs <;> simp

/-- With non-zero eigenvalues, the wall coefficients are differences of the general solution for unit temperatures. -/
theorem genB_eq {e : Eig n} {A : Matrix (P n) (P n) ℝ} (h : e.Of A) (hL : ∀ k, e.L k ≠ 0) (zu : ℕ → ℝ) (z : ℝ) (i : P n)
    (u : ℕ) : genB A e zu z i u
      = (∑ j, genF0 e (max (z - zu (u + 1)) 0) i j) - ∑ j, genF0 e (max (z - zu u) 0) i j := by
  have hs : ∀ k, (1 / e.L k) * (∑ l, e.Vm1 k l * (sumA A l : ℂ)) = ∑ l, e.Vm1 k l := by
    intro k
    have h1 : ∑ l, e.Vm1 k l * (sumA A l : ℂ) = e.L k * ∑ l, e.Vm1 k l := by
      have h2 : ∀ j, ∑ l, e.Vm1 k l * (A l j : ℂ) = e.L k * e.Vm1 k j := by
        intro j
        have := congrFun (congrFun h.comm k) j
        rw [Matrix.diagonal_mul, Matrix.mul_apply] at this
        simpa using this
      rw [Finset.mul_sum, Finset.sum_congr rfl fun j _ => (h2 j).symm]
      rw [Finset.sum_comm]
      refine Finset.sum_congr rfl fun l _ => ?_
      rw [← Finset.mul_sum]
      unfold sumA
      push_cast
      rfl
    rw [h1, ← mul_assoc, one_div, inv_mul_cancel₀ (hL k), one_mul]
  have hg : ∀ w : ℝ, (∑ j, genF0 e w i j) = (∑ k, e.V i k * (∑ l, e.Vm1 k l) * Complex.exp (e.L k * w)).re := by
    intro w
    unfold genF0
    rw [← Complex.re_sum, Finset.sum_comm]
    congr 1
    refine Finset.sum_congr rfl fun k _ => ?_
    rw [← Finset.mul_sum, mul_comm (w : ℂ)]
    ring
  rw [hg, hg, ← Complex.sub_re, ← Finset.sum_sub_distrib]
  unfold genB
  congr 1
  refine Finset.sum_congr rfl fun k _ => ?_
  rw [mul_assoc (e.V i k), hs]
  ring

/-! ### The profile -/

/-- Response to unit fluid temperatures. -/
def unitF (e : Eig n) (w : ℝ) (i : P n) : ℝ := ∑ j, genF0 e w i j

theorem unitF_zero {e : Eig n} {A : Matrix (P n) (P n) ℝ} (h : e.Of A) (i : P n) : unitF e 0 i = 1 := by
  unfold unitF
  rw [genF0_zero h]
  simp [Matrix.one_apply]

theorem unitF_deriv {e : Eig n} {A : Matrix (P n) (P n) ℝ} (h : e.Of A) (w : ℝ) (i : P n) :
    HasDerivAt (fun w => unitF e w i) ((A *ᵥ unitF e w) i) w := by
  have : HasDerivAt (fun w => ∑ j, genF0 e w i j) (∑ j, (A * genF0 e w) i j) w :=
    HasDerivAt.fun_sum fun j _ => genF0_deriv h w i j
  refine this.congr_deriv ?_
  simp only [Matrix.mul_apply, Matrix.mulVec, dotProduct, unitF]
  rw [Finset.sum_comm]
  exact Finset.sum_congr rfl fun k _ => by rw [Finset.mul_sum]

theorem unitF_continuous {e : Eig n} {A : Matrix (P n) (P n) ℝ} (h : e.Of A) (i : P n) :
    Continuous (fun w => unitF e w i) :=
  continuous_iff_continuousAt.mpr fun w => (unitF_deriv h w i).continuousAt

theorem genF0_continuous {e : Eig n} {A : Matrix (P n) (P n) ℝ} (h : e.Of A) (i j : P n) :
    Continuous (fun w => genF0 e w i j) :=
  continuous_iff_continuousAt.mpr fun w => (genF0_deriv h w i j).continuousAt

theorem genB_continuous {e : Eig n} {A : Matrix (P n) (P n) ℝ} (h : e.Of A) (hL : ∀ k, e.L k ≠ 0) (zu : ℕ → ℝ) (i : P n)
    (u : ℕ) : Continuous fun z => genB A e zu z i u := by
  have : (fun z => genB A e zu z i u) = fun z => unitF e (max (z - zu (u + 1)) 0) i - unitF e (max (z - zu u) 0) i :=
    funext fun z => genB_eq h hL zu z i u
  rw [this]
  have hc := unitF_continuous h i
  exact (hc.comp (by fun_prop)).sub (hc.comp (by fun_prop))

theorem genB_zero {e : Eig n} {A : Matrix (P n) (P n) ℝ} (h : e.Of A) (hL : ∀ k, e.L k ≠ 0) (zu : ℕ → ℝ) (i : P n)
    (u : ℕ) (h0 : 0 ≤ zu u) (h1 : 0 ≤ zu (u + 1)) : genB A e zu 0 i u = 0 := by
  rw [genB_eq h hL, max_eq_right (by linarith), max_eq_right (by linarith), sub_self]

theorem genB_deriv {e : Eig n} {A : Matrix (P n) (P n) ℝ} (h : e.Of A) (hL : ∀ k, e.L k ≠ 0) {zu : ℕ → ℝ} {k : ℕ}
    (hmono : ∀ i j, i ≤ j → j ≤ k → zu i ≤ zu j) {v u : ℕ} (hv : v < k) (hu : u < k) {z : ℝ}
    (hz : z ∈ Ioo (zu v) (zu (v + 1))) (i : P n) :
    HasDerivAt (fun z => genB A e zu z i u)
      ((A *ᵥ fun j => genB A e zu z j u) i - if u = v then sumA A i else 0) z := by
  have hfun : ∀ z i, genB A e zu z i u = unitF e (max (z - zu (u + 1)) 0) i - unitF e (max (z - zu u) 0) i :=
    fun z i => genB_eq h hL zu z i u
  have hnhds : ∀ᶠ w in nhds z, w ∈ Icc (zu v) (zu (v + 1)) := Icc_mem_nhds hz.1 hz.2
  have hz' := Ioo_subset_Icc_self hz
  have hD : ∀ c : ℝ, HasDerivAt (fun w => unitF e (w - c) i) ((A *ᵥ unitF e (z - c)) i) z := by
    intro c
    have := (unitF_deriv h (z - c) i).comp_sub_const z c
    exact this
  have hsumA : ∀ i, (A *ᵥ unitF e 0) i = sumA A i := by
    intro i
    have : unitF e 0 = fun _ => (1 : ℝ) := funext fun j => unitF_zero h j
    rw [this]
    simp [Matrix.mulVec, dotProduct, sumA]
  rcases lt_trichotomy u v with huv | huv | huv
  · have e1 : zu (u + 1) ≤ zu v := hmono _ _ (by omega) (by omega)
    have e2 : zu u ≤ zu v := hmono _ _ (by omega) (by omega)
    have hloc : ∀ w ∈ Icc (zu v) (zu (v + 1)), ∀ i, genB A e zu w i u = unitF e (w - zu (u + 1)) i - unitF e (w - zu u) i := by
      intro w hw i
      rw [hfun, max_eq_left (by linarith [hw.1]), max_eq_left (by linarith [hw.1])]
    refine (HasDerivAt.congr_of_eventuallyEq ((hD (zu (u + 1))).sub (hD (zu u)))
      (hnhds.mono fun w hw => hloc w hw i)).congr_deriv ?_
    rw [if_neg (by omega), sub_zero]
    have : (fun j => genB A e zu z j u) = unitF e (z - zu (u + 1)) - unitF e (z - zu u) := by
      funext j; rw [hloc z hz' j]; rfl
    rw [this, Matrix.mulVec_sub]; rfl
  · subst huv
    have hloc : ∀ w ∈ Icc (zu u) (zu (u + 1)), ∀ i, genB A e zu w i u = unitF e 0 i - unitF e (w - zu u) i := by
      intro w hw i
      rw [hfun, max_eq_right (by linarith [hw.2]), max_eq_left (by linarith [hw.1])]
    refine (HasDerivAt.congr_of_eventuallyEq ((hD (zu u)).const_sub (unitF e 0 i))
      (hnhds.mono fun w hw => hloc w hw i)).congr_deriv ?_
    rw [if_pos rfl, ← hsumA]
    have : (fun j => genB A e zu z j u) = unitF e 0 - unitF e (z - zu u) := by
      funext j; rw [hloc z hz' j]; rfl
    rw [this, Matrix.mulVec_sub]
    simp only [Pi.sub_apply]
    ring
  · have e1 : zu (v + 1) ≤ zu u := hmono _ _ (by omega) (by omega)
    have e2 : zu (v + 1) ≤ zu (u + 1) := hmono _ _ (by omega) (by omega)
    have hloc : ∀ w ∈ Icc (zu v) (zu (v + 1)), ∀ i, genB A e zu w i u = 0 := by
      intro w hw i
      rw [hfun, max_eq_right (by linarith [hw.2]), max_eq_right (by linarith [hw.2]), sub_self]
    refine (HasDerivAt.congr_of_eventuallyEq (hasDerivAt_const z (0 : ℝ))
      (hnhds.mono fun w hw => hloc w hw i)).congr_deriv ?_
    rw [if_neg (by omega)]
    have : (fun j => genB A e zu z j u) = 0 := by
      funext j; rw [hloc z hz' j]; rfl
    rw [this, Matrix.mulVec_zero]; simp

/-! ### Energy balance of the pipes -/

/-- Heat flow per unit length into the fluid of pipe `i`, from the delta circuit. -/
def pipeFlux (Rd : Matrix (P n) (P n) ℝ) (T : P n → ℝ) (Tw : ℝ) (i : P n) : ℝ :=
  (Tw - T i) / Rd i i + ∑ j ∈ Finset.univ.erase i, (T j - T i) / Rd i j

theorem odeA_flux (Rd : Matrix (P n) (P n) ℝ) (mcp : P n → ℝ) (T : P n → ℝ) (Tw : ℝ) (i : P n) :
    (odeA Rd mcp *ᵥ T) i - sumA (odeA Rd mcp) i * Tw = pipeFlux Rd T Tw i / mcp i := by
  have key : ∀ x : P n → ℝ, ∑ j, odeA Rd mcp i j * x j
      = -(1 / (Rd i i * mcp i)) * x i + ∑ j ∈ Finset.univ.erase i, 1 / (Rd i j * mcp i) * (x j - x i) := by
    intro x
    rw [← Finset.add_sum_erase _ _ (Finset.mem_univ i)]
    have : ∑ j ∈ Finset.univ.erase i, odeA Rd mcp i j * x j = ∑ j ∈ Finset.univ.erase i, 1 / (Rd i j * mcp i) * x j :=
      Finset.sum_congr rfl fun j hj => by
        unfold odeA; rw [if_neg (Finset.ne_of_mem_erase hj).symm]
    rw [this]
    simp only [mul_sub, Finset.sum_sub_distrib, ← Finset.sum_mul]
    unfold odeA
    rw [if_pos rfl]
    ring
  have h1 := key T
  have h2 := key fun _ => 1
  simp only [mul_one, sub_self, mul_zero, Finset.sum_const_zero, add_zero] at h2
  unfold sumA Matrix.mulVec dotProduct
  rw [h1, h2]
  unfold pipeFlux
  rw [add_div, Finset.sum_div]
  have h3 : ∀ a b c : ℝ, 1 / (a * b) * c = c / a / b := by
    intro a b c; rw [one_div, mul_inv]; ring
  rw [add_sub_right_comm]
  congr 1
  · rw [div_div]; ring
  · exact Finset.sum_congr rfl fun j _ => h3 _ _ _

/-- The flows between pipes cancel. -/
theorem flux_total (Rd : Matrix (P n) (P n) ℝ) (hs : Rd.IsSymm) (T : P n → ℝ) (Tw : ℝ) :
    ∑ i, pipeFlux Rd T Tw i = ∑ i, (Tw - T i) / Rd i i := by
  unfold pipeFlux
  rw [Finset.sum_add_distrib]
  have h : ∑ i, ∑ j ∈ Finset.univ.erase i, (T j - T i) / Rd i j = ∑ i, ∑ j, (T j - T i) / Rd i j :=
    Finset.sum_congr rfl fun i _ => by
      rw [← Finset.add_sum_erase _ _ (Finset.mem_univ i)]; simp
  have h2 : ∑ i, ∑ j, (T j - T i) / Rd i j = -∑ i, ∑ j, (T j - T i) / Rd i j := by
    conv_lhs => rw [Finset.sum_comm]
    rw [← Finset.sum_neg_distrib]
    refine Finset.sum_congr rfl fun i _ => ?_
    rw [← Finset.sum_neg_distrib]
    refine Finset.sum_congr rfl fun j _ => ?_
    rw [hs.apply i j]; ring
  rw [h]
  linarith

/-- Dissipation: the quadratic form of the circuit. -/
theorem flux_dissipation (Rd : Matrix (P n) (P n) ℝ) (hs : Rd.IsSymm) (T : P n → ℝ) :
    ∑ i, T i * pipeFlux Rd T 0 i = -(∑ i, T i ^ 2 / Rd i i) - 1 / 2 * ∑ i, ∑ j, (T j - T i) ^ 2 / Rd i j := by
  have h : ∀ i, T i * pipeFlux Rd T 0 i = -(T i ^ 2 / Rd i i) + ∑ j, T i * ((T j - T i) / Rd i j) := by
    intro i
    unfold pipeFlux
    have : ∑ j, T i * ((T j - T i) / Rd i j) = ∑ j ∈ Finset.univ.erase i, T i * ((T j - T i) / Rd i j) := by
      rw [← Finset.add_sum_erase _ _ (Finset.mem_univ i)]; simp
    rw [this, ← Finset.mul_sum]
    ring
  rw [Finset.sum_congr rfl fun i _ => h i, Finset.sum_add_distrib, Finset.sum_neg_distrib]
  have h2 : ∑ i, ∑ j, T i * ((T j - T i) / Rd i j) = ∑ i, ∑ j, T j * ((T i - T j) / Rd i j) := by
    conv_lhs => rw [Finset.sum_comm]
    refine Finset.sum_congr rfl fun i _ => Finset.sum_congr rfl fun j _ => ?_
    rw [hs.apply i j]
  have h3 : ∑ i, ∑ j, T i * ((T j - T i) / Rd i j) + ∑ i, ∑ j, T j * ((T i - T j) / Rd i j)
      = -∑ i, ∑ j, (T j - T i) ^ 2 / Rd i j := by
    rw [← Finset.sum_add_distrib, ← Finset.sum_neg_distrib]
    refine Finset.sum_congr rfl fun i _ => ?_
    rw [← Finset.sum_add_distrib, ← Finset.sum_neg_distrib]
    exact Finset.sum_congr rfl fun j _ => by ring
  linarith

theorem dissipation_nonneg (Rd : Matrix (P n) (P n) ℝ) (hpos : ∀ i j, 0 < Rd i j) (T : P n → ℝ) :
    0 ≤ (∑ i, T i ^ 2 / Rd i i) ∧ 0 ≤ ∑ i, ∑ j, (T j - T i) ^ 2 / Rd i j := by
  constructor
  · exact Finset.sum_nonneg fun i _ => div_nonneg (sq_nonneg _) (hpos i i).le
  · exact Finset.sum_nonneg fun i _ => Finset.sum_nonneg fun j _ => div_nonneg (sq_nonneg _) (hpos i j).le

/-- For positive resistances the eigenvalues are not zero. -/
theorem eig_ne_zero {Rd : Matrix (P n) (P n) ℝ} (hpos : ∀ i j, 0 < Rd i j) {mcp : P n → ℝ} (hm : ∀ i, mcp i ≠ 0)
    {e : Eig n} (h : e.Of (odeA Rd mcp)) (k : P n) : e.L k ≠ 0 := by
  have hdet : (odeA Rd mcp).det ≠ 0 := by
    apply det_ne_zero_of_sum_row_lt_diag
    intro i
    have h0 : 0 < |mcp i| := abs_pos.mpr (hm i)
    have e1 : ∀ j, ‖1 / (Rd i j * mcp i)‖ = 1 / (Rd i j * |mcp i|) := by
      intro j
      rw [Real.norm_eq_abs, abs_div, abs_one, abs_mul, abs_of_pos (hpos i j)]
    have e2 : ‖odeA Rd mcp i i‖ = 1 / (Rd i i * |mcp i|) + ∑ j ∈ Finset.univ.erase i, 1 / (Rd i j * |mcp i|) := by
      unfold odeA
      rw [if_pos rfl]
      have : -(1 / (Rd i i * mcp i)) - ∑ k ∈ Finset.univ.erase i, 1 / (Rd i k * mcp i)
          = -(1 / mcp i) * (1 / Rd i i + ∑ k ∈ Finset.univ.erase i, 1 / Rd i k) := by
        rw [mul_add, Finset.mul_sum, sub_eq_add_neg, ← Finset.sum_neg_distrib]
        congr 1
        · rw [one_div, mul_inv]; ring
        · refine Finset.sum_congr rfl fun j _ => ?_
          rw [one_div, mul_inv]; ring
      have hsum : 0 < 1 / Rd i i + ∑ k ∈ Finset.univ.erase i, 1 / Rd i k := by
        have := hpos i i
        have h2 : 0 ≤ ∑ k ∈ Finset.univ.erase i, 1 / Rd i k :=
          Finset.sum_nonneg fun j _ => by have := hpos i j; positivity
        positivity
      rw [this, Real.norm_eq_abs, abs_mul, abs_neg, abs_div, abs_one, abs_of_pos hsum, mul_add, Finset.mul_sum]
      · congr 1
        · rw [one_div, one_div, one_div, mul_inv]; ring
        · refine Finset.sum_congr rfl fun j _ => ?_
          rw [one_div, one_div, one_div, mul_inv]; ring
    rw [e2]
    have e3 : ∑ j ∈ Finset.univ.erase i, ‖odeA Rd mcp i j‖ = ∑ j ∈ Finset.univ.erase i, 1 / (Rd i j * |mcp i|) :=
      Finset.sum_congr rfl fun j hj => by
        unfold odeA; rw [if_neg (Finset.ne_of_mem_erase hj).symm, e1]
    rw [e3]
    have := hpos i i
    have : 0 < 1 / (Rd i i * |mcp i|) := by positivity
    linarith
  intro hk
  have hdetC : ((odeA Rd mcp).map ((↑) : ℝ → ℂ)).det ≠ 0 := by
    have := (Complex.ofRealHom.map_det (odeA Rd mcp)).symm
    rw [show (odeA Rd mcp).map ((↑) : ℝ → ℂ) = Complex.ofRealHom.mapMatrix (odeA Rd mcp) from rfl, this]
    simpa using hdet
  have hV : e.V.det ≠ 0 := by
    intro h0
    have := congrArg det h.inv
    rw [det_mul, h0, zero_mul, det_one] at this
    exact zero_ne_one this
  have hd := congrArg det h.eig
  rw [det_mul, det_mul, det_diagonal, Finset.prod_eq_zero (Finset.mem_univ k) hk, mul_zero] at hd
  exact mul_ne_zero hdetC hV hd

end Verif.Pipe.Multi
