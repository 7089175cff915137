import Verif.Pipe.PoleModel
import Mathlib.Analysis.SpecialFunctions.Complex.LogDeriv

/-!
# Properties C45, C46: delta circuit and line source resistances
-/

noncomputable section

namespace Verif.Pipe.Pole

open ComplexConjugate

variable {n : ℕ}

/-! ### C45: the delta circuit -/

/-- Specification: heat flows `q` leaving the pipes in the delta circuit `Rd`, with fluid temperatures `T` and wall temperature `Tb`. -/
def DeltaFlows (Rd : Matrix (Fin n) (Fin n) ℝ) (T : Fin n → ℝ) (Tb : ℝ) (q : Fin n → ℝ) : Prop :=
  ∀ i, q i = (T i - Tb) / Rd i i + ∑ j ∈ Finset.univ.erase i, (T i - T j) / Rd i j

/-- Specification: the same heat flows by superposition of the temperature drops `R i j * q j`. -/
def MatrixFlows (R : Matrix (Fin n) (Fin n) ℝ) (T : Fin n → ℝ) (Tb : ℝ) (q : Fin n → ℝ) : Prop :=
  ∀ i, T i - Tb = ∑ j, R i j * q j

theorem matrixFlows_iff {R : Matrix (Fin n) (Fin n) ℝ} (hR : R.det ≠ 0) (T : Fin n → ℝ) (Tb : ℝ) (q : Fin n → ℝ) :
    MatrixFlows R T Tb q ↔ ∀ i, q i = ∑ j, R⁻¹ i j * (T j - Tb) := by
  have hu : IsUnit R.det := isUnit_iff_ne_zero.mpr hR
  have e1 : MatrixFlows R T Tb q ↔ (fun i => T i - Tb) = R.mulVec q := by
    unfold MatrixFlows; rw [funext_iff]; rfl
  have e2 : (∀ i, q i = ∑ j, R⁻¹ i j * (T j - Tb)) ↔ q = R⁻¹.mulVec (fun i => T i - Tb) := by
    rw [funext_iff]; rfl
  rw [e1, e2]
  constructor
  · intro h; rw [h, Matrix.mulVec_mulVec, Matrix.nonsing_inv_mul _ hu, Matrix.one_mulVec]
  · intro h; rw [h, Matrix.mulVec_mulVec, Matrix.mul_nonsing_inv _ hu, Matrix.one_mulVec]

theorem delta_entry {R Rd : Matrix (Fin n) (Fin n) ℝ} (h : delta R = some Rd) :
    R.det ≠ 0 ∧ (∀ i, 1 / Rd i i = ∑ j, R⁻¹ i j) ∧ ∀ i j, i ≠ j → 1 / Rd i j = - R⁻¹ i j := by
  unfold delta at h
  by_cases hd : R.det = 0
  · rw [if_pos hd] at h; exact absurd h (by simp)
  rw [if_neg hd] at h
  have h := Option.some.inj h
  subst h
  refine ⟨hd, fun i => ?_, fun i j hij => ?_⟩
  · simp only [recip, conduct, if_true, one_div, inv_inv, Matrix.neg_apply]
    rw [← Finset.add_sum_erase _ _ (Finset.mem_univ i), ← Finset.add_sum_erase Finset.univ (fun j => R⁻¹ i j) (Finset.mem_univ i)]
    rw [if_pos rfl, zero_add, neg_add, neg_neg]
    congr 1
    rw [← Finset.sum_neg_distrib]
    refine Finset.sum_congr rfl fun j hj => ?_
    rw [if_neg (Finset.ne_of_mem_erase hj), neg_neg]
  · simp only [recip, conduct, if_neg hij, one_div, inv_inv, Matrix.neg_apply]

/-- **C45.**  The delta circuit yields the heat flows of the resistance matrix, for all fluid and wall temperatures. -/
theorem delta_equivalent {R Rd : Matrix (Fin n) (Fin n) ℝ} (h : delta R = some Rd) (T : Fin n → ℝ) (Tb : ℝ) (q : Fin n → ℝ) :
    DeltaFlows Rd T Tb q ↔ MatrixFlows R T Tb q := by
  obtain ⟨hd, h1, h2⟩ := delta_entry h
  rw [matrixFlows_iff hd]
  unfold DeltaFlows
  refine forall_congr' fun i => ?_
  suffices e : (T i - Tb) / Rd i i + ∑ j ∈ Finset.univ.erase i, (T i - T j) / Rd i j = ∑ j, R⁻¹ i j * (T j - Tb) by rw [e]
  have e1 : ∑ j ∈ Finset.univ.erase i, (T i - T j) / Rd i j = ∑ j ∈ Finset.univ.erase i, (T j - T i) * R⁻¹ i j := by
    refine Finset.sum_congr rfl fun j hj => ?_
    rw [div_eq_mul_one_div, h2 i j (Finset.ne_of_mem_erase hj).symm]; ring
  rw [e1, div_eq_mul_one_div, h1]
  have e2 : ∑ j ∈ Finset.univ.erase i, (T j - T i) * R⁻¹ i j = ∑ j, (T j - T i) * R⁻¹ i j := by
    rw [← Finset.add_sum_erase Finset.univ _ (Finset.mem_univ i)]; ring
  rw [e2, Finset.mul_sum, ← Finset.sum_add_distrib]
  exact Finset.sum_congr rfl fun j _ => by ring

/-- **C45** (defined).  A delta circuit is returned for every invertible matrix, and only for those. -/
theorem delta_defined (R : Matrix (Fin n) (Fin n) ℝ) : (∃ Rd, delta R = some Rd) ↔ IsUnit R := by
  rw [Matrix.isUnit_iff_isUnit_det, isUnit_iff_ne_zero]
  constructor
  · rintro ⟨Rd, h⟩; exact (delta_entry h).1
  · intro h
    unfold delta
    rw [if_neg h]
    exact ⟨_, rfl⟩

/-- **C45** (local resistance).  With the same temperature in all pipes, the total heat flow to the wall is the temperature difference over the local borehole
thermal resistance. -/
theorem local_resistance {R Rd : Matrix (Fin n) (Fin n) ℝ} (h : delta R = some Rd) (T Tb : ℝ) (q : Fin n → ℝ)
    (hq : MatrixFlows R (fun _ => T) Tb q) : ∑ i, q i = (T - Tb) / local' Rd := by
  have := (delta_equivalent h (fun _ => T) Tb q).mpr hq
  unfold DeltaFlows at this
  have e : ∀ i, q i = (T - Tb) * (1 / Rd i i) := by
    intro i; rw [this i]; simp [div_eq_mul_inv]
  rw [Finset.sum_congr rfl fun i _ => e i, ← Finset.mul_sum]
  unfold local'
  rw [div_eq_mul_one_div, one_div_one_div]

/-- The resistance matrix of two pipes. -/
def sampleR : Matrix (Fin 2) (Fin 2) ℝ := !![3, 1; 1, 3]

/-- Non-vacuity: the delta circuit of two pipes is `4` to the wall and `8` between the pipes. -/
example : delta sampleR = some !![4, 8; 8, 4] := by
  have hd : sampleR.det = 8 := by rw [sampleR, Matrix.det_fin_two_of]; norm_num
  unfold delta
  rw [if_neg (by rw [hd]; norm_num)]
  have hinv : sampleR⁻¹ = !![3 / 8, -1 / 8; -1 / 8, 3 / 8] := by
    apply Matrix.inv_eq_left_inv
    rw [sampleR]
    ext i j
    fin_cases i <;> fin_cases j <;> norm_num [Matrix.mul_apply, Fin.sum_univ_two]
  rw [hinv]
  refine congrArg some ?_
  ext i j
  fin_cases i <;> fin_cases j <;> norm_num [recip, conduct, Fin.sum_univ_two]

/-! ### C46: line source and zeroth order multipole -/

/-- Pipe centres inside of the borehole. -/
structure Sec.Ok (s : Sec n) : Prop where
  rb : 0 < s.rb
  kg : s.kg ≠ 0
  inside : ∀ i, ‖s.z i‖ < s.rb

theorem norm_sqrt (w : ℂ) : √(w.re ^ 2 + w.im ^ 2) = ‖w‖ := (Complex.norm_eq_sqrt_sq_add_sq w).symm

theorem norm_sub_sqrt (w v : ℂ) : √((w.re - v.re) ^ 2 + (w.im - v.im) ^ 2) = ‖w - v‖ := (Complex.norm_eq_sqrt_sq_add_sq (w - v)).symm

theorem image_norm {rb : ℝ} (hb : 0 < rb) (w v : ℂ) :
    √((1 - ‖w‖ ^ 2 / rb ^ 2) * (1 - ‖v‖ ^ 2 / rb ^ 2) + ‖w - v‖ ^ 2 / rb ^ 2) = ‖(rb : ℂ) ^ 2 - conj w * v‖ / rb ^ 2 := by
  have hb2 : (0 : ℝ) < rb ^ 2 := by positivity
  have hn : ‖(rb : ℂ) ^ 2 - conj w * v‖ ^ 2 = (rb ^ 2 - ‖w‖ ^ 2) * (rb ^ 2 - ‖v‖ ^ 2) + rb ^ 2 * ‖w - v‖ ^ 2 := by
    rw [← Complex.normSq_eq_norm_sq, ← Complex.normSq_eq_norm_sq, ← Complex.normSq_eq_norm_sq, ← Complex.normSq_eq_norm_sq]
    simp only [Complex.normSq_apply, Complex.sub_re, Complex.sub_im, Complex.mul_re, Complex.mul_im, Complex.conj_re, Complex.conj_im,
      sq, Complex.ofReal_re, Complex.ofReal_im]
    ring
  have e : (1 - ‖w‖ ^ 2 / rb ^ 2) * (1 - ‖v‖ ^ 2 / rb ^ 2) + ‖w - v‖ ^ 2 / rb ^ 2 = (‖(rb : ℂ) ^ 2 - conj w * v‖ / rb ^ 2) ^ 2 := by
    rw [div_pow, hn]; field_simp
  rw [e, Real.sqrt_sq (by positivity)]

theorem image_ne {rb : ℝ} {w v : ℂ} (hw : ‖w‖ < rb) (hv : ‖v‖ ≤ rb) : (rb : ℂ) ^ 2 - conj w * v ≠ 0 := by
  have hb : 0 < rb := lt_of_le_of_lt (norm_nonneg _) hw
  intro h
  have e : (rb : ℂ) ^ 2 = conj w * v := sub_eq_zero.mp h
  have := congrArg norm e
  rw [norm_pow, norm_mul, Complex.norm_real, Real.norm_of_nonneg hb.le, RCLike.norm_conj] at this
  have h2 : ‖w‖ * ‖v‖ < rb * rb := mul_lt_mul'' (hw) (lt_of_le_of_ne hv ?_) (norm_nonneg _) (norm_nonneg _)
  · nlinarith
  · intro hc
    rw [hc, sq] at this
    exact absurd (mul_right_cancel₀ hb.ne' this) hw.ne'

theorem line_eq_R0 {s : Sec n} (h : s.Ok) : s.line = s.R0 := by
  have hb2 : (0 : ℝ) < s.rb ^ 2 := by have := h.rb; positivity
  have hpi : Real.pi ≠ 0 := Real.pi_ne_zero
  have hkg := h.kg
  funext i j
  unfold Sec.line Sec.R0
  by_cases hij : i = j
  · rw [if_pos hij, if_pos hij]
    dsimp only
    rw [norm_sqrt]
    have hpos : 0 < s.rb ^ 2 - ‖s.z i‖ ^ 2 := by
      have := h.inside i; have := norm_nonneg (s.z i); nlinarith
    have e : 1 - ‖s.z i‖ ^ 2 / s.rb ^ 2 = (s.rb ^ 2 / (s.rb ^ 2 - ‖s.z i‖ ^ 2))⁻¹ := by rw [inv_div, sub_div, div_self hb2.ne']
    rw [e, Real.log_inv]
    unfold Sec.pikg Sec.beta
    field_simp
    ring
  · rw [if_neg hij, if_neg hij]
    dsimp only
    rw [norm_sqrt, norm_sqrt, norm_sub_sqrt, image_norm h.rb]
    have e1 : ‖s.z i - s.z j‖ / s.rb = (s.rb / ‖s.z i - s.z j‖)⁻¹ := by rw [inv_div]
    have e2 : ‖(s.rb : ℂ) ^ 2 - conj (s.z i) * s.z j‖ / s.rb ^ 2 = (s.rb ^ 2 / ‖(s.rb : ℂ) ^ 2 - conj (s.z i) * s.z j‖)⁻¹ := by rw [inv_div]
    rw [e1, e2, Real.log_inv, Real.log_inv]
    unfold Sec.pikg
    ring

/-- **C46.**  The line source resistance of pipes `i` and `j` is the fluid temperature of pipe `i` in the zeroth order multipole solution with a unit heat
flow from pipe `j`. -/
theorem line_source (s : Sec n) (h : s.Ok) (i j : Fin n) (eps : ℝ) (itMax : ℕ) :
    s.resist 0 i j = (s.multipole 0 (fun k => if k = j then 1 else 0) 0 eps itMax).1 i := by
  have e : s.resist 0 = s.R0 := by unfold Sec.resist; rw [if_pos rfl, line_eq_R0 h]
  rw [e]
  show s.R0 i j = s.fluid 0 _ _ i
  unfold Sec.fluid
  simp

/-- **C46** (symmetry).  The resistance matrix of order zero is symmetric. -/
theorem line_symm (s : Sec n) (h : s.Ok) (i j : Fin n) : s.resist 0 i j = s.resist 0 j i := by
  have e : s.resist 0 = s.R0 := by unfold Sec.resist; rw [if_pos rfl, line_eq_R0 h]
  rw [e]
  unfold Sec.R0
  by_cases hij : i = j
  · rw [hij]
  · rw [if_neg hij, if_neg (Ne.symm hij), norm_sub_rev]
    have e : ‖(s.rb : ℂ) ^ 2 - conj (s.z i) * s.z j‖ = ‖(s.rb : ℂ) ^ 2 - conj (s.z j) * s.z i‖ := by
      rw [← RCLike.norm_conj]
      congr 1
      simp only [map_sub, map_mul, map_pow, Complex.conj_ofReal, Complex.conj_conj]
      ring
    rw [e]

/-- Two pipes in a borehole. -/
def sampleSec : Sec 2 := ⟨fun i => if i = 0 then 1 / 20 else -1 / 20, fun _ => 1 / 60, 3 / 40, 2, 1, fun _ => 1 / 10⟩

/-- Non-vacuity. -/
theorem sampleSec_ok : sampleSec.Ok := by
  refine ⟨by norm_num [sampleSec], by norm_num [sampleSec], fun i => ?_⟩
  fin_cases i <;> norm_num [sampleSec]

end Verif.Pipe.Pole
