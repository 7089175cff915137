import Verif.FLS.Model
import Mathlib.MeasureTheory.Integral.Prod
import Mathlib.MeasureTheory.Integral.IntervalIntegral.FundThmCalculus
import Mathlib.Analysis.SpecialFunctions.Integrals.Basic
import Mathlib.Analysis.SpecialFunctions.ExpDeriv
import Mathlib.Analysis.SpecialFunctions.Sqrt
import Mathlib.Analysis.SpecialFunctions.Log.Deriv

/-!
# Lemmas on the finite line source solution
-/

noncomputable section

namespace Verif.FLS

open Real MeasureTheory

theorem sqrt_pi_pos : 0 < √π := sqrt_pos.mpr pi_pos

theorem gauss_continuous : Continuous fun t : ℝ => exp (-t ^ 2) := by fun_prop

theorem hasDerivAt_erf (x : ℝ) : HasDerivAt erf (2 / √π * exp (-x ^ 2)) x := by
  unfold erf
  exact (intervalIntegral.integral_hasDerivAt_right (gauss_continuous.intervalIntegrable _ _) (gauss_continuous.stronglyMeasurableAtFilter _ _)
    gauss_continuous.continuousAt).const_mul _

theorem erf_zero : erf 0 = 0 := by simp [erf]

theorem hasDerivAt_erfint (x : ℝ) : HasDerivAt erfint (erf x) x := by
  unfold erfint
  have h1 := (hasDerivAt_id x).mul (hasDerivAt_erf x)
  have h2 : HasDerivAt (fun x : ℝ => exp (-x ^ 2)) (exp (-x ^ 2) * (-(2 * x))) x := by
    have := ((hasDerivAt_pow 2 x).neg).exp
    refine this.congr_deriv ?_
    norm_num
  have h3 := h1.sub ((h2.const_sub 1).const_mul (1 / √π))
  refine h3.congr_deriv ?_
  simp only [id]
  ring

theorem erf_neg (x : ℝ) : erf (-x) = -erf x := by
  unfold erf
  have h := intervalIntegral.integral_comp_neg (a := 0) (b := x) (fun t : ℝ => exp (-t ^ 2))
  simp only [neg_zero, neg_sq] at h
  rw [intervalIntegral.integral_symm, ← h]
  ring

theorem erfint_neg (x : ℝ) : erfint (-x) = erfint x := by
  unfold erfint
  rw [erf_neg, neg_sq]
  ring

theorem erfint_zero : erfint 0 = 0 := by simp [erfint]

/-- `erfint` is the integral of the error function. -/
theorem erfint_eq_integral (x : ℝ) : erfint x = ∫ t in (0 : ℝ)..x, erf t := by
  have hc : Continuous erf := continuous_iff_continuousAt.mpr fun x => (hasDerivAt_erf x).continuousAt
  rw [intervalIntegral.integral_eq_sub_of_hasDerivAt (fun t _ => hasDerivAt_erfint t) (hc.intervalIntegrable _ _), erfint_zero, sub_zero]

/-! ### Double integrals -/

section double
variable {G G' k : ℝ → ℝ} (hG : ∀ x, HasDerivAt G (G' x) x) (hG' : ∀ x, HasDerivAt G' (k x) x) (hk : Continuous k)
include hG hG' hk

theorem double_sub (a b c e : ℝ) : ∫ z in c..e, ∫ w in a..b, k (z - w) = G (e - a) - G (c - a) + G (c - b) - G (e - b) := by
  have h1 : ∀ z, ∫ w in a..b, k (z - w) = G' (z - a) - G' (z - b) := fun z => by
    rw [intervalIntegral.integral_comp_sub_left (fun x => k x) z]
    exact intervalIntegral.integral_eq_sub_of_hasDerivAt (fun x _ => hG' x) (hk.intervalIntegrable _ _)
  have hc : Continuous G' := continuous_iff_continuousAt.mpr fun x => (hG' x).continuousAt
  have h2 : ∀ x, ∫ z in c..e, G' (z - x) = G (e - x) - G (c - x) := fun x => by
    rw [intervalIntegral.integral_comp_sub_right (fun y => G' y) x]
    exact intervalIntegral.integral_eq_sub_of_hasDerivAt (fun y _ => hG y) (hc.intervalIntegrable _ _)
  simp only [h1]
  rw [intervalIntegral.integral_sub (Continuous.intervalIntegrable (by fun_prop) _ _) (Continuous.intervalIntegrable (by fun_prop) _ _), h2, h2]
  ring

theorem double_add (a b c e : ℝ) : ∫ z in c..e, ∫ w in a..b, k (z + w) = G (e + b) - G (c + b) - G (e + a) + G (c + a) := by
  have h1 : ∀ z, ∫ w in a..b, k (z + w) = G' (z + b) - G' (z + a) := fun z => by
    rw [intervalIntegral.integral_comp_add_left (fun x => k x) z]
    exact intervalIntegral.integral_eq_sub_of_hasDerivAt (fun x _ => hG' x) (hk.intervalIntegrable _ _)
  have hc : Continuous G' := continuous_iff_continuousAt.mpr fun x => (hG' x).continuousAt
  have h2 : ∀ x, ∫ z in c..e, G' (z + x) = G (e + x) - G (c + x) := fun x => by
    rw [intervalIntegral.integral_comp_add_right (fun y => G' y) x]
    exact intervalIntegral.integral_eq_sub_of_hasDerivAt (fun y _ => hG y) (hc.intervalIntegrable _ _)
  simp only [h1]
  rw [intervalIntegral.integral_sub (Continuous.intervalIntegrable (by fun_prop) _ _) (Continuous.intervalIntegrable (by fun_prop) _ _), h2, h2]
  ring

end double

/-! ### The Gaussian kernel -/

theorem gauss_G {s : ℝ} (hs : s ≠ 0) (x : ℝ) : HasDerivAt (fun x => √π / 2 * s ^ (-2 : ℤ) * erfint (x * s)) (√π / 2 * s⁻¹ * erf (x * s)) x := by
  have h := (HasDerivAt.comp x (hasDerivAt_erfint (x * s)) ((hasDerivAt_id x).mul_const s)).const_mul (√π / 2 * s ^ (-2 : ℤ))
  refine h.congr_deriv ?_
  rw [zpow_neg]
  field_simp

theorem gauss_G' {s : ℝ} (hs : s ≠ 0) (x : ℝ) : HasDerivAt (fun x => √π / 2 * s⁻¹ * erf (x * s)) (exp (-(x * s) ^ 2)) x := by
  have h := (HasDerivAt.comp x (hasDerivAt_erf (x * s)) ((hasDerivAt_id x).mul_const s)).const_mul (√π / 2 * s⁻¹)
  refine h.congr_deriv ?_
  have := sqrt_pi_pos
  field_simp

/-- Tail of a Gaussian. -/
theorem gauss_tail {r : ℝ} (hr : 0 < r) (a : ℝ) : ∫ s in Set.Ioi a, exp (-r ^ 2 * s ^ 2) = √π / (2 * r) * (1 - erf (a * r)) := by
  have hi : Integrable fun s : ℝ => exp (-r ^ 2 * s ^ 2) := integrable_exp_neg_mul_sq (by positivity)
  have h0 : ∫ s in Set.Ioi (0 : ℝ), exp (-r ^ 2 * s ^ 2) = √π / (2 * r) := by
    rw [integral_gaussian_Ioi, sqrt_div pi_pos.le, sqrt_sq hr.le]
    field_simp
  have h1 := intervalIntegral.integral_Ioi_sub_Ioi' (μ := volume) (a := 0) (b := a) (hi.integrableOn (s := Set.Ioi 0)) (hi.integrableOn (s := Set.Ioi a))
  have h2 : ∫ s in (0 : ℝ)..a, exp (-r ^ 2 * s ^ 2) = √π / (2 * r) * erf (a * r) := by
    have := intervalIntegral.integral_eq_sub_of_hasDerivAt (a := 0) (b := a) (f := fun s => √π / 2 * r⁻¹ * erf (s * r)) (f' := fun s => exp (-(s * r) ^ 2))
      (fun s _ => gauss_G' hr.ne' s) (Continuous.intervalIntegrable (by fun_prop) _ _)
    simp only [zero_mul, erf_zero, mul_zero, sub_zero] at this
    rw [show √π / (2 * r) * erf (a * r) = √π / 2 * r⁻¹ * erf (a * r) by field_simp, ← this]
    congr 1
    funext s
    ring_nf
  rw [h0, h2] at h1
  linarith

end Verif.FLS
