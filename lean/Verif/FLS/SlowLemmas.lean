import Verif.FLS.VertLemmas
import Mathlib.Analysis.SpecialFunctions.Gaussian.FourierTransform
import Mathlib.Analysis.Convex.Deriv
import Mathlib.Analysis.Convex.Mul

/-!
# Lemmas: the vertical part of the line source of one borehole as a function of time (C130)

The vertical part decreases with time and is convex: its derivative is minus the integral of a square times `exp (-alpha k² t)`.
-/

noncomputable section

namespace Verif.FLS

open Real MeasureTheory Set Filter Topology

/-! ### Cosine transform of a Gaussian -/

theorem cos_gauss_integrable (q : ℝ) {b : ℝ} (hb : 0 < b) : Integrable fun k : ℝ => cos (q * k) * exp (-b * k ^ 2) := by
  refine (integrable_exp_neg_mul_sq hb).mono' (by fun_prop) (Eventually.of_forall fun k => ?_)
  rw [norm_mul, norm_eq_abs, norm_eq_abs, abs_of_pos (exp_pos _)]
  exact mul_le_of_le_one_left (exp_pos _).le (abs_cos_le_one _)

theorem cos_gauss (q : ℝ) {b : ℝ} (hb : 0 < b) : ∫ k : ℝ, cos (q * k) * exp (-b * k ^ 2) = √(π / b) * exp (-q ^ 2 / (4 * b)) := by
  have h := fourierIntegral_gaussian (b := (b : ℂ)) (by simpa using hb) (q : ℂ)
  have e : ∀ k : ℝ, Complex.exp (Complex.I * q * k) * Complex.exp (-b * (k : ℂ) ^ 2)
      = ((cos (q * k) * exp (-b * k ^ 2) : ℝ) : ℂ) + ((sin (q * k) * exp (-b * k ^ 2) : ℝ) : ℂ) * Complex.I := by
    intro k
    rw [show Complex.I * (q : ℂ) * k = ((q * k : ℝ) : ℂ) * Complex.I by push_cast; ring, Complex.exp_mul_I]
    rw [show -(b : ℂ) * (k : ℂ) ^ 2 = ((-b * k ^ 2 : ℝ) : ℂ) by push_cast; ring, ← Complex.ofReal_exp, ← Complex.ofReal_cos, ← Complex.ofReal_sin]
    push_cast
    ring
  have hi : Integrable fun k : ℝ => Complex.exp (Complex.I * q * k) * Complex.exp (-b * (k : ℂ) ^ 2) := by
    simp_rw [e]
    have h2 : Integrable fun k : ℝ => sin (q * k) * exp (-b * k ^ 2) := by
      refine (integrable_exp_neg_mul_sq hb).mono' (by fun_prop) (Eventually.of_forall fun k => ?_)
      rw [norm_mul, norm_eq_abs, norm_eq_abs, abs_of_pos (exp_pos _)]
      exact mul_le_of_le_one_left (exp_pos _).le (abs_sin_le_one _)
    exact (cos_gauss_integrable q hb).ofReal.add (h2.ofReal.mul_const _)
  have h3 := congrArg Complex.re h
  rw [← RCLike.re_eq_complex_re, ← integral_re hi] at h3
  have e2 : ∀ k : ℝ, RCLike.re (Complex.exp (Complex.I * q * k) * Complex.exp (-b * (k : ℂ) ^ 2)) = cos (q * k) * exp (-b * k ^ 2) := by
    intro k
    rw [e, RCLike.re_eq_complex_re, Complex.add_re, Complex.ofReal_re, Complex.re_ofReal_mul, Complex.I_re, mul_zero, add_zero]
  simp_rw [e2] at h3
  rw [h3]
  have e3 : (π / b : ℂ) ^ (1 / 2 : ℂ) = ((√(π / b) : ℝ) : ℂ) := by
    rw [sqrt_eq_rpow, Complex.ofReal_cpow (by positivity)]
    push_cast
    rfl
  rw [e3, show -(q : ℂ) ^ 2 / (4 * b) = ((-q ^ 2 / (4 * b) : ℝ) : ℂ) by push_cast; ring, ← Complex.ofReal_exp, ← Complex.ofReal_mul]
  rfl

/-! ### The derivative of the vertical part -/

/-- Weight of the wave number `k` for a borehole between the depths `D` and `B`. -/
def wave (D B k : ℝ) : ℝ := 2 * (cos (D * k) - cos (B * k)) ^ 2

theorem wave_nonneg (D B k : ℝ) : 0 ≤ wave D B k := by unfold wave; positivity

theorem wave_eq (D B k : ℝ) : wave D B k = 2 * cos (0 * k) + cos (2 * D * k) + cos (2 * B * k) - 2 * cos ((B - D) * k) - 2 * cos ((B + D) * k) := by
  unfold wave
  have h1 : cos (2 * D * k) = 2 * cos (D * k) ^ 2 - 1 := by rw [mul_assoc, cos_two_mul]
  have h2 : cos (2 * B * k) = 2 * cos (B * k) ^ 2 - 1 := by rw [mul_assoc, cos_two_mul]
  have h3 : cos ((B - D) * k) = cos (B * k) * cos (D * k) + sin (B * k) * sin (D * k) := by rw [sub_mul, cos_sub]
  have h4 : cos ((B + D) * k) = cos (B * k) * cos (D * k) - sin (B * k) * sin (D * k) := by rw [add_mul, cos_add]
  rw [h1, h2, h3, h4, zero_mul, cos_zero]
  ring

/-- The Gaussian differences of the ends of a borehole, with `b = alpha t`. -/
def rim (D B b : ℝ) : ℝ :=
  2 + exp (-(2 * D) ^ 2 / (4 * b)) + exp (-(2 * B) ^ 2 / (4 * b)) - 2 * exp (-(B - D) ^ 2 / (4 * b)) - 2 * exp (-(B + D) ^ 2 / (4 * b))

theorem wave_integrable (D B : ℝ) {b : ℝ} (hb : 0 < b) : Integrable fun k : ℝ => wave D B k * exp (-b * k ^ 2) := by
  have h := fun q => cos_gauss_integrable q hb
  refine (((((h 0).const_mul 2).add (h (2 * D))).add (h (2 * B))).sub ((h (B - D)).const_mul 2) |>.sub ((h (B + D)).const_mul 2)).congr (Eventually.of_forall fun k => ?_)
  simp only [Pi.add_apply, Pi.sub_apply]
  rw [wave_eq]
  ring

theorem integral_five {f1 f2 f3 f4 f5 : ℝ → ℝ} (h1 : Integrable f1) (h2 : Integrable f2) (h3 : Integrable f3) (h4 : Integrable f4) (h5 : Integrable f5) :
    ∫ k, (2 * f1 k + f2 k + f3 k - 2 * f4 k - 2 * f5 k) = 2 * (∫ k, f1 k) + (∫ k, f2 k) + (∫ k, f3 k) - 2 * (∫ k, f4 k) - 2 * ∫ k, f5 k := by
  have a1 : Integrable fun k => 2 * f1 k := h1.const_mul 2
  have a2 : Integrable fun k => 2 * f1 k + f2 k := a1.add h2
  have a3 : Integrable fun k => 2 * f1 k + f2 k + f3 k := a2.add h3
  have a4 : Integrable fun k => 2 * f1 k + f2 k + f3 k - 2 * f4 k := a3.sub (h4.const_mul 2)
  rw [integral_sub a4 (h5.const_mul 2), integral_sub a3 (h4.const_mul 2), integral_add a2 h3, integral_add a1 h2, integral_const_mul, integral_const_mul, integral_const_mul]

theorem wave_integral (D B : ℝ) {b : ℝ} (hb : 0 < b) : ∫ k : ℝ, wave D B k * exp (-b * k ^ 2) = √(π / b) * rim D B b := by
  have h := fun q => cos_gauss_integrable q hb
  have e : (fun k : ℝ => wave D B k * exp (-b * k ^ 2)) = fun k => 2 * (cos (0 * k) * exp (-b * k ^ 2)) + cos (2 * D * k) * exp (-b * k ^ 2)
      + cos (2 * B * k) * exp (-b * k ^ 2) - 2 * (cos ((B - D) * k) * exp (-b * k ^ 2)) - 2 * (cos ((B + D) * k) * exp (-b * k ^ 2)) := by
    funext k
    rw [wave_eq]
    ring
  rw [e, integral_five (h 0) (h (2 * D)) (h (2 * B)) (h (B - D)) (h (B + D)), cos_gauss 0 hb, cos_gauss _ hb, cos_gauss _ hb, cos_gauss _ hb, cos_gauss _ hb]
  simp only [rim, ne_eq, OfNat.ofNat_ne_zero, not_false_eq_true, zero_pow, neg_zero, zero_div, exp_zero]
  ring

theorem lower_hasDerivAt {alpha t : ℝ} (ha : 0 < alpha) (ht : 0 < t) : HasDerivAt (lower alpha) (-(lower alpha t / (2 * t))) t := by
  have hp : 0 < 4 * alpha * t := by positivity
  have h1 : HasDerivAt (fun t => √(4 * alpha * t)) (4 * alpha * 1 / (2 * √(4 * alpha * t))) t := ((hasDerivAt_id t).const_mul (4 * alpha)).sqrt hp.ne'
  have h0 : √(4 * alpha * t) ≠ 0 := (sqrt_pos.mpr hp).ne'
  have h2 := (hasDerivAt_const t (1 : ℝ)).div h1 h0
  refine h2.congr_deriv ?_
  unfold lower
  have e : √(4 * alpha * t) ^ 2 = 4 * alpha * t := sq_sqrt hp.le
  field_simp
  rw [e]
  ring

theorem lower_sq {alpha t : ℝ} (ha : 0 < alpha) (ht : 0 < t) : lower alpha t ^ 2 = 1 / (4 * (alpha * t)) := by
  unfold lower
  rw [div_pow, sq_sqrt (by positivity), one_pow, mul_assoc]

/-- The vertical part of a borehole at time `t`. -/
def vertAt (alpha D H t : ℝ) : ℝ := Pair.vert ⟨0, H, D, H, D⟩ (lower alpha t)

theorem vertAt_hasDerivAt {alpha D H t : ℝ} (ha : 0 < alpha) (ht : 0 < t) :
    HasDerivAt (vertAt alpha D H) (-(alpha / π * ∫ k : ℝ, wave D (D + H) k * exp (-(alpha * t) * k ^ 2))) t := by
  have hs := lower_pos ha ht
  have h := HasDerivAt.comp t (vertOf_deriv (ι := Unit) (fun _ => D) (fun _ => H) () () hs.ne') (lower_hasDerivAt ha ht)
  refine h.congr_deriv ?_
  have e : ends (ι := Unit) (fun _ => D) (fun _ => H) () () (lower alpha t) = rim D (D + H) (alpha * t) := by
    simp only [ends, inner8, Pair.qAll, List.map_cons, List.map_nil, List.zipWith_cons_cons, List.zipWith_nil_left, List.sum_cons, List.sum_nil, add_zero, rim, mul_pow, lower_sq ha ht]
    rw [show D - D + H = H by ring, show D - D - H = -H by ring, show D - D = 0 by ring, show H - H = 0 by ring, show D + D + H = D + H + D by ring, show D + H + D + H = 2 * (D + H) by ring,
      show D + H - D = H by ring, show D + D = 2 * D by ring]
    have f : ∀ q : ℝ, -(q ^ 2 * (1 / (4 * (alpha * t)))) = -q ^ 2 / (4 * (alpha * t)) := fun q => by ring
    simp only [f, mul_pow, neg_sq]
    norm_num
    ring_nf
  rw [e, wave_integral D (D + H) (mul_pos ha ht)]
  have hq : √(π / (alpha * t)) = √π * (2 * lower alpha t) := by
    rw [sqrt_div pi_pos.le, div_eq_mul_inv]
    congr 1
    unfold lower
    rw [mul_assoc, sqrt_mul (by norm_num : (0 : ℝ) ≤ 4) (alpha * t), show √(4 : ℝ) = 2 by rw [show (4 : ℝ) = 2 ^ 2 by norm_num, sqrt_sq (by norm_num)]]
    have : √(alpha * t) ≠ 0 := (sqrt_pos.mpr (by positivity)).ne'
    field_simp
  rw [hq]
  have h2 := lower_sq ha ht
  have hpi : √π ^ 2 = π := sq_sqrt pi_pos.le
  have hp0 : √π ≠ 0 := (sqrt_pos.mpr pi_pos).ne'
  rw [← hpi] 
  have e3 : lower alpha t ^ 2 * (4 * (alpha * t)) = 1 := by rw [h2]; field_simp
  rw [sqrt_sq (sqrt_nonneg _)]
  field_simp
  linear_combination rim D (D + H) (alpha * t) * e3

end Verif.FLS
