import Verif.FLS.ApproxModel
import Mathlib.MeasureTheory.Integral.IntegralEqImproper

/-!
# Lemmas on the approximation of the finite line source solution: the exponential integral and the terms of the sums
-/

noncomputable section

namespace Verif.FLS

open Real MeasureTheory Set Filter Topology

/-- The exponential integral. -/
def E1 (x : ℝ) : ℝ := ∫ u in Ioi x, exp (-u) / u

theorem E1_integrableOn {x : ℝ} (hx : 0 < x) : IntegrableOn (fun u : ℝ => exp (-u) / u) (Ioi x) := by
  have h : IntegrableOn (fun u : ℝ => exp (-u) * x⁻¹) (Ioi x) := by
    have := exp_neg_integrableOn_Ioi x (b := 1) one_pos
    simp only [neg_mul, one_mul] at this
    exact this.mul_const _
  refine Integrable.mono' h ?_ ?_
  · exact (ContinuousOn.div (by fun_prop) continuousOn_id fun u hu => (hx.trans hu).ne').aestronglyMeasurable measurableSet_Ioi
  · refine (ae_restrict_mem measurableSet_Ioi).mono fun u hu => ?_
    have hu' : x < u := hu
    have h0 : 0 < u := hx.trans hu'
    rw [norm_of_nonneg (by positivity), div_eq_mul_inv]
    exact mul_le_mul_of_nonneg_left (inv_anti₀ hx hu'.le) (exp_pos _).le

theorem E1_nonneg {x : ℝ} (hx : 0 < x) : 0 ≤ E1 x :=
  setIntegral_nonneg measurableSet_Ioi fun u hu => by
    have h0 : 0 < u := hx.trans hu
    positivity

theorem E1_anti {x y : ℝ} (hx : 0 < x) (h : x ≤ y) : E1 y ≤ E1 x :=
  setIntegral_mono_set (E1_integrableOn hx) ((ae_restrict_mem measurableSet_Ioi).mono fun u hu => by
    have h0 : 0 < u := hx.trans hu
    positivity) (Ioi_subset_Ioi h).eventuallyLE

theorem gauss_div_continuousOn {k a : ℝ} (ha : 0 < a) : ContinuousOn (fun s : ℝ => exp (-k * s ^ 2) / s) (Ici a) :=
  ContinuousOn.div (by fun_prop) continuousOn_id fun s hs => (ha.trans_le hs).ne'

/-- Gaussian over `s`. -/
theorem gauss_div_integrableOn {k a : ℝ} (hk : 0 < k) (ha : 0 < a) : IntegrableOn (fun s : ℝ => exp (-k * s ^ 2) / s) (Ioi a) := by
  have hi : IntegrableOn (fun s : ℝ => exp (-k * s ^ 2) * a⁻¹) (Ioi a) := ((integrable_exp_neg_mul_sq hk).mul_const _).integrableOn
  refine Integrable.mono' hi ((gauss_div_continuousOn ha).mono Ioi_subset_Ici_self |>.aestronglyMeasurable measurableSet_Ioi) ?_
  refine (ae_restrict_mem measurableSet_Ioi).mono fun u hu => ?_
  have hu' : a < u := hu
  have h0 : 0 < u := ha.trans hu'
  rw [norm_of_nonneg (by positivity), div_eq_mul_inv]
  exact mul_le_mul_of_nonneg_left (inv_anti₀ ha hu'.le) (exp_pos _).le

theorem gauss_div_integral {k a : ℝ} (hk : 0 < k) (ha : 0 < a) : ∫ s in Ioi a, exp (-k * s ^ 2) / s = 0.5 * E1 (k * a ^ 2) := by
  have h := integral_comp_mul_deriv_Ioi (a := a) (f := fun s => k * s ^ 2) (f' := fun s => k * (2 * s)) (g := fun u => exp (-u) / u)
    (by fun_prop) ((tendsto_pow_atTop two_ne_zero).const_mul_atTop hk)
    (fun x _ => by simpa using ((hasDerivAt_pow 2 x).const_mul k).hasDerivWithinAt) ?_ ?_ ?_
  · rw [E1, ← h, ← integral_const_mul]
    refine setIntegral_congr_fun measurableSet_Ioi fun s hs => ?_
    have h0 : 0 < s := ha.trans hs
    simp only [Function.comp]
    rw [← neg_mul]
    field_simp
    norm_num
  · refine ContinuousOn.div (by fun_prop) continuousOn_id ?_
    rintro _ ⟨s, hs, rfl⟩
    have h0 : 0 < s := ha.trans hs
    exact (by positivity : (0 : ℝ) < k * s ^ 2).ne'
  · have hE : IntegrableOn (fun u : ℝ => exp (-u) / u) (Ici (k * a ^ 2)) := by
      rw [integrableOn_Ici_iff_integrableOn_Ioi]
      exact E1_integrableOn (by positivity)
    refine hE.mono_set ?_
    rintro _ ⟨s, hs, rfl⟩
    have hs' : a ≤ s := hs
    exact mul_le_mul_of_nonneg_left (pow_le_pow_left₀ ha.le hs' 2) hk.le
  · rw [integrableOn_Ici_iff_integrableOn_Ioi]
    refine IntegrableOn.congr_fun ((gauss_div_integrableOn hk ha).const_mul 2) (fun s hs => ?_) measurableSet_Ioi
    have h0 : 0 < s := ha.trans hs
    simp only [Function.comp]
    rw [← neg_mul]
    field_simp

theorem erf_tendsto : Tendsto erf atTop (𝓝 1) := by
  have hi : IntegrableOn (fun t : ℝ => exp (-t ^ 2)) (Ioi 0) := by
    have := integrable_exp_neg_mul_sq (b := 1) one_pos
    simp only [neg_mul, one_mul] at this
    exact this.integrableOn
  have h := (intervalIntegral_tendsto_integral_Ioi 0 hi tendsto_id).const_mul (2 / √π)
  have h0 : ∫ t in Ioi (0 : ℝ), exp (-t ^ 2) = √π / 2 := by
    have := integral_gaussian_Ioi 1
    simp only [neg_mul, one_mul, div_one] at this
    exact this
  rw [h0, show 2 / √π * (√π / 2) = 1 by have := sqrt_pi_pos; field_simp] at h
  exact h

/-- Antiderivative of a Gaussian over `s ^ 2`. -/
theorem gauss_sq_deriv {c s : ℝ} (hs : 0 < s) :
    HasDerivAt (fun s => -(exp (-c ^ 2 * s ^ 2) / s) - c * √π * erf (s * c)) (exp (-c ^ 2 * s ^ 2) / s ^ 2) s := by
  have h1 : HasDerivAt (fun s : ℝ => exp (-c ^ 2 * s ^ 2)) (exp (-c ^ 2 * s ^ 2) * (-c ^ 2 * (2 * s))) s := by
    simpa using ((hasDerivAt_pow 2 s).const_mul (-c ^ 2)).exp
  have h2 : HasDerivAt (fun s => erf (s * c)) (2 / √π * exp (-(s * c) ^ 2) * c) s := by
    have := HasDerivAt.comp s (hasDerivAt_erf (s * c)) ((hasDerivAt_id s).mul_const c)
    refine this.congr_deriv ?_
    ring
  have h3 := ((h1.div (hasDerivAt_id s) hs.ne').neg).sub (h2.const_mul (c * √π))
  refine h3.congr_deriv ?_
  have := sqrt_pi_pos
  rw [show -(s * c) ^ 2 = -c ^ 2 * s ^ 2 by ring]
  simp only [id]
  field_simp
  ring

theorem gauss_sq_tendsto {c : ℝ} (hc : 0 < c) : Tendsto (fun s => -(exp (-c ^ 2 * s ^ 2) / s) - c * √π * erf (s * c)) atTop (𝓝 (-(c * √π))) := by
  have h1 : Tendsto (fun s : ℝ => exp (-c ^ 2 * s ^ 2) / s) atTop (𝓝 0) := by
    refine squeeze_zero' (g := fun s => s⁻¹) ?_ ?_ tendsto_inv_atTop_zero
    · filter_upwards [eventually_gt_atTop 0] with s hs
      positivity
    · filter_upwards [eventually_gt_atTop 0] with s hs
      rw [div_eq_mul_inv]
      refine mul_le_of_le_one_left (by positivity) (exp_le_one_iff.mpr ?_)
      nlinarith [mul_nonneg (sq_nonneg c) (sq_nonneg s)]
  have h2 : Tendsto (fun s => erf (s * c)) atTop (𝓝 1) := erf_tendsto.comp (tendsto_id.atTop_mul_const hc)
  have := h1.neg.sub (h2.const_mul (c * √π))
  simpa using this

theorem gauss_sq_integrableOn {c a : ℝ} (hc : 0 < c) (ha : 0 < a) : IntegrableOn (fun s : ℝ => exp (-c ^ 2 * s ^ 2) / s ^ 2) (Ioi a) :=
  integrableOn_Ioi_deriv_of_nonneg (gauss_sq_deriv ha).continuousAt.continuousWithinAt (fun s hs => gauss_sq_deriv (ha.trans hs)) (fun s _ => by positivity) (gauss_sq_tendsto hc)

theorem gauss_sq_integral {c a : ℝ} (hc : 0 < c) (ha : 0 < a) :
    ∫ s in Ioi a, exp (-c ^ 2 * s ^ 2) / s ^ 2 = exp (-c ^ 2 * a ^ 2) / a - c * √π * erfc (a * c) := by
  rw [integral_Ioi_of_hasDerivAt_of_tendsto (gauss_sq_deriv ha).continuousAt.continuousWithinAt (fun s hs => gauss_sq_deriv (ha.trans hs))
    (gauss_sq_integrableOn hc ha) (gauss_sq_tendsto hc), erfc_eq]
  ring

end Verif.FLS
