import Verif.FLS.EquivProps
import Verif.FLS.ApproxLemmas
import Mathlib.Analysis.SpecialFunctions.Integrals.Basic

/-!
# Sensitivity of the finite line source solution to the distance

The response at a distance is at most the logarithm of the ratio of the distances above the response at a larger distance.
-/

noncomputable section

namespace Verif.FLS

open Real MeasureTheory Set Filter

theorem erf_le_one (x : ℝ) : erf x ≤ 1 := by
  have hm : Monotone erf := monotone_of_deriv_nonneg (fun x => (hasDerivAt_erf x).differentiableAt) fun x => by
    rw [(hasDerivAt_erf x).deriv]
    positivity
  exact hm.ge_of_tendsto erf_tendsto x

theorem abs_erf_le (x : ℝ) : |erf x| ≤ 1 := by
  have h := erf_le_one (-x)
  rw [erf_neg] at h
  exact abs_le.mpr ⟨by linarith, erf_le_one x⟩

theorem erfint_lipschitz (x y : ℝ) : |erfint x - erfint y| ≤ |x - y| := by
  have h := Convex.norm_image_sub_le_of_norm_hasDerivWithin_le (f := erfint) (f' := erf) (C := 1) (s := univ) (x := y) (y := x)
    (fun z _ => (hasDerivAt_erfint z).hasDerivWithinAt) (fun z _ => abs_erf_le z) convex_univ (mem_univ _) (mem_univ _)
  simpa using h

/-- The integrand without the factor of the distance. -/
theorem kernel_bound {g : Pair} (hg : g.Ok) (h1 : 0 < g.H1) (img : Bool) {s : ℝ} (hs : 0 < s) : integrand (g.at 0) true img s ≤ 2 * g.H2 / s := by
  have hrea : integrand (g.at 0) true false s ≤ 2 * g.H2 / s := by
    have e : integrand (g.at 0) true false s = s ^ (-2 : ℤ) * ((erfint ((g.D2 - g.D1 + g.H2) * s) - erfint ((g.D2 - g.D1) * s)) +
        (erfint ((g.D2 - g.D1 - g.H1) * s) - erfint ((g.D2 - g.D1 + g.H2 - g.H1) * s))) := by
      simp only [integrand, Pair.at, Pair.qRea, inner4, Bool.and_false, Bool.false_eq_true, if_false, if_true, List.map_cons, List.map_nil, List.zipWith_cons_cons, List.zipWith_nil_left,
        List.sum_cons, List.sum_nil]
      rw [show -(0 : ℝ) ^ 2 * s ^ 2 = 0 by ring, exp_zero]
      ring
    have l1 := (le_abs_self _).trans (erfint_lipschitz ((g.D2 - g.D1 + g.H2) * s) ((g.D2 - g.D1) * s))
    have l2 := (le_abs_self _).trans (erfint_lipschitz ((g.D2 - g.D1 - g.H1) * s) ((g.D2 - g.D1 + g.H2 - g.H1) * s))
    have hp : 0 < g.H2 * s := mul_pos hg.H2 hs
    rw [show (g.D2 - g.D1 + g.H2) * s - (g.D2 - g.D1) * s = g.H2 * s by ring, abs_of_pos hp] at l1
    rw [show (g.D2 - g.D1 - g.H1) * s - (g.D2 - g.D1 + g.H2 - g.H1) * s = -(g.H2 * s) by ring, abs_neg, abs_of_pos hp] at l2
    rw [e, show (2 * g.H2 / s : ℝ) = s ^ (-2 : ℤ) * (g.H2 * s + g.H2 * s) by rw [zpow_neg]; field_simp; norm_cast; ring]
    exact mul_le_mul_of_nonneg_left (add_le_add l1 l2) (by positivity)
  cases img with
  | false => exact hrea
  | true =>
    have h := img_neg (at_ok hg one_pos) h1 hs
    rw [integrand_at] at h
    have h' : integrand (g.at 0) false true s < 0 := by
      by_contra hc
      exact absurd h (not_lt.mpr (mul_nonneg (exp_pos _).le (not_lt.mp hc)))
    rw [integrand_all]
    linarith

theorem E1_sub_le {x y : ℝ} (hx : 0 < x) (hxy : x ≤ y) : E1 x - E1 y ≤ log (y / x) := by
  unfold E1
  rw [intervalIntegral.integral_Ioi_sub_Ioi (E1_integrableOn hx) hxy, ← integral_one_div_of_pos hx (hx.trans_le hxy)]
  have h0 : ∀ u ∈ Icc x y, u ≠ 0 := fun u hu => (hx.trans_le hu.1).ne'
  refine intervalIntegral.integral_mono_on hxy (ContinuousOn.intervalIntegrable_of_Icc hxy ?_) (ContinuousOn.intervalIntegrable_of_Icc hxy ?_) fun u hu => ?_
  · exact ContinuousOn.div (by fun_prop) continuousOn_id h0
  · exact ContinuousOn.div (by fun_prop) continuousOn_id h0
  · have hu0 : 0 < u := hx.trans_le hu.1
    exact div_le_div_of_nonneg_right (exp_le_one_iff.mpr (by linarith)) hu0.le

/-- **C101.**  The response at the distance `a` exceeds the response at the larger distance `b` by at most `log (b / a)`. -/
theorem sub_le_log {alpha : ℝ} (ha : 0 < alpha) {g : Pair} (hg : g.Ok) (h1 : 0 < g.H1) (img : Bool) {t : ℝ} (ht : 0 < t) {a b : ℝ}
    (hpa : 0 < a) (hab : a ≤ b) : fls t alpha (g.at a) true img - fls t alpha (g.at b) true img ≤ log (b / a) := by
  have hpb := hpa.trans_le hab
  have hl := lower_pos ha ht
  have hH := hg.H2
  have ia := integrand_integrableOn (at_ok hg hpa) true img hl.le
  have ib := integrand_integrableOn (at_ok hg hpb) true img hl.le
  have ga := gauss_div_integrableOn (k := a ^ 2) (by positivity) hl
  have gb := gauss_div_integrableOn (k := b ^ 2) (by positivity) hl
  have key : (∫ s in Ioi (lower alpha t), (integrand (g.at a) true img s - integrand (g.at b) true img s)) ≤
      ∫ s in Ioi (lower alpha t), 2 * g.H2 * (exp (-a ^ 2 * s ^ 2) / s - exp (-b ^ 2 * s ^ 2) / s) := by
    refine setIntegral_mono_on (ia.sub ib) ((ga.sub gb).const_mul _) measurableSet_Ioi fun s hs => ?_
    have hs0 : 0 < s := hl.trans hs
    rw [integrand_at g true img a, integrand_at g true img b, ← sub_mul]
    have he : 0 ≤ exp (-a ^ 2 * s ^ 2) - exp (-b ^ 2 * s ^ 2) := by
      rw [sub_nonneg, exp_le_exp]
      have : a ^ 2 ≤ b ^ 2 := by nlinarith
      nlinarith [mul_le_mul_of_nonneg_right this (sq_nonneg s)]
    calc _ ≤ (exp (-a ^ 2 * s ^ 2) - exp (-b ^ 2 * s ^ 2)) * (2 * g.H2 / s) := mul_le_mul_of_nonneg_left (kernel_bound hg h1 img hs0) he
      _ = _ := by ring
  rw [integral_sub ia ib, integral_const_mul, integral_sub ga gb, gauss_div_integral (by positivity) hl, gauss_div_integral (by positivity) hl] at key
  have hE := E1_sub_le (x := a ^ 2 * lower alpha t ^ 2) (y := b ^ 2 * lower alpha t ^ 2) (by positivity)
    (mul_le_mul_of_nonneg_right (by nlinarith) (sq_nonneg _))
  rw [show b ^ 2 * lower alpha t ^ 2 / (a ^ 2 * lower alpha t ^ 2) = (b / a) ^ 2 by field_simp, log_pow] at hE
  push_cast at hE
  have e : fls t alpha (g.at a) true img - fls t alpha (g.at b) true img =
      0.5 / g.H2 * ((∫ s in Ioi (lower alpha t), integrand (g.at a) true img s) - ∫ s in Ioi (lower alpha t), integrand (g.at b) true img s) := by
    unfold fls quad
    simp only [Pair.at]
    ring
  rw [e]
  calc _ ≤ 0.5 / g.H2 * (2 * g.H2 * (0.5 * E1 (a ^ 2 * lower alpha t ^ 2) - 0.5 * E1 (b ^ 2 * lower alpha t ^ 2))) := mul_le_mul_of_nonneg_left key (by positivity)
    _ = 0.5 * (E1 (a ^ 2 * lower alpha t ^ 2) - E1 (b ^ 2 * lower alpha t ^ 2)) := by field_simp; ring
    _ ≤ log (b / a) := by linarith

/-- **C101** (tolerance).  The responses at two distances differ by at most `log (1 / (1 - tol))` when the distances differ by a fraction `tol` of one of them. -/
theorem close_log {alpha : ℝ} (ha : 0 < alpha) {g : Pair} (hg : g.Ok) (h1 : 0 < g.H1) (img : Bool) (hD : img = true → 0 ≤ g.D1 ∧ 0 ≤ g.D2) {t : ℝ} (ht : 0 < t) {d e tol : ℝ}
    (hd : 0 < d) (h0 : 0 ≤ tol) (ht1 : tol < 1) (hde : |d - e| ≤ tol * d) : |fls t alpha (g.at d) true img - fls t alpha (g.at e) true img| ≤ log (1 / (1 - tol)) := by
  obtain ⟨l1, l2⟩ := abs_le.mp hde
  have he : (1 - tol) * d ≤ e := by linarith
  have he' : e ≤ (1 + tol) * d := by linarith
  have hp : 0 < 1 - tol := by linarith
  have hpe : 0 < e := (mul_pos hp hd).trans_le he
  rcases le_total d e with h | h
  · have u1 := sub_le_log ha hg h1 img ht hd h
    have u2 := decreasing ha hg h1 img hD ht hd h
    rw [abs_of_nonneg (by linarith)]
    refine u1.trans (log_le_log (by positivity) ?_)
    rw [div_le_div_iff₀ hd hp]
    nlinarith
  · have u1 := sub_le_log ha hg h1 img ht hpe h
    have u2 := decreasing ha hg h1 img hD ht hpe h
    rw [abs_sub_comm, abs_of_nonneg (by linarith)]
    refine u1.trans (log_le_log (by positivity) ?_)
    rw [div_le_div_iff₀ hpe hp]
    nlinarith

/-- Boreholes of 150 m at 5 m and at 5.05 m: the response is lower by at most `log 1.01` at all times. -/
example (t : ℝ) (ht : 0 < t) : 0 ≤ fls t (1 / 10 ^ 6) ⟨5, 150, 4, 150, 4⟩ true true - fls t (1 / 10 ^ 6) ⟨505 / 100, 150, 4, 150, 4⟩ true true ∧
    fls t (1 / 10 ^ 6) ⟨5, 150, 4, 150, 4⟩ true true - fls t (1 / 10 ^ 6) ⟨505 / 100, 150, 4, 150, 4⟩ true true ≤ log (1 + 1 / 100) := by
  have hg : (⟨5, 150, 4, 150, 4⟩ : Pair).Ok := ⟨by norm_num, by norm_num, by norm_num⟩
  have h1 := decreasing (alpha := 1 / 10 ^ 6) (by norm_num) hg (by norm_num) true (fun _ => by norm_num) ht (d := 5) (e := 505 / 100) (by norm_num) (by norm_num)
  have h2 := sub_le_log (alpha := 1 / 10 ^ 6) (by norm_num) hg (by norm_num) true ht (a := 5) (b := 505 / 100) (by norm_num) (by norm_num)
  rw [show (505 / 100 / 5 : ℝ) = 1 + 1 / 100 by norm_num] at h2
  exact ⟨sub_nonneg.mpr h1, h2⟩

end Verif.FLS
