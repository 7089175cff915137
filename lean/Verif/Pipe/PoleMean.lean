import Verif.Pipe.PoleProps
import Mathlib.Analysis.SpecialFunctions.Integrals.PosLogEqCircleAverage
import Mathlib.Analysis.Complex.MeanValue
import Mathlib.Analysis.Complex.JensenFormula

/-!
# Mean temperatures of the multipole solution

Circle averages of the temperature field, used by the properties in `PoleMeanProps`.
-/

noncomputable section

namespace Verif.Pipe.Pole

open ComplexConjugate Metric Real

variable {n J : ℕ}

/-- Valid cross-section: pipes inside of the borehole, no overlap. -/
structure Sec.Geo (s : Sec n) : Prop where
  rb : 0 < s.rb
  r : ∀ i, 0 < s.r i
  kg : 0 < s.kg
  ks : 0 < s.ks
  inside : ∀ i, ‖s.z i‖ + s.r i ≤ s.rb
  apart : ∀ i j, i ≠ j → s.r i + s.r j ≤ ‖s.z i - s.z j‖

theorem Sec.Geo.lt {s : Sec n} (h : s.Geo) (i : Fin n) : ‖s.z i‖ < s.rb := by
  have := h.r i; have := h.inside i; linarith

/-- Image denominators do not vanish inside of the borehole. -/
theorem image_ne' {rb : ℝ} {w v : ℂ} (hw : ‖w‖ < rb) (hv : ‖v‖ ≤ rb) : (rb : ℂ) ^ 2 - w * conj v ≠ 0 := by
  have := image_ne (w := conj w) (v := conj v) (rb := rb) (by rwa [RCLike.norm_conj]) (by rwa [RCLike.norm_conj])
  rwa [Complex.conj_conj] at this

/-- The field outside of the pipes. -/
theorem field_outside (s : Sec n) (Tb : ℝ) (q : Fin n → ℝ) (P : Fin n → Fin J → ℂ) (Tf : Fin n → ℝ) {w : ℂ} (hr : ∀ i, 0 < s.r i)
    (hw : ∀ i, s.r i ≤ ‖w - s.z i‖) :
    s.field Tb q P Tf w = Tb + ∑ i, q i * s.pikg * (s.W0 w i).re + ∑ i, ∑ j : Fin J, (P i j * s.WJ w i j).re := by
  unfold Sec.field
  have e : (List.finRange n).find? (s.inPipe w) = none := by
    rw [List.find?_eq_none]
    intro i _
    unfold Sec.inPipe
    simp only [decide_eq_true_eq, not_lt]
    rw [le_div_iff₀ (hr i), one_mul]
    exact hw i
  rw [e]
  dsimp only
  rw [Complex.add_re, Complex.re_sum, Complex.re_sum, ← add_assoc]
  congr 1
  · congr 1
    refine Finset.sum_congr rfl fun i _ => ?_
    rw [← Complex.ofReal_mul, Complex.re_ofReal_mul]
  · exact Finset.sum_congr rfl fun i _ => Complex.re_sum _ _

theorem W0_re {s : Sec n} {w : ℂ} (hw : ‖w‖ ≤ s.rb) (i : Fin n) :
    (s.W0 w i).re = log ‖(s.rb : ℂ) / (w - s.z i)‖ + s.sigma * log ‖(s.rb : ℂ) ^ 2 / ((s.rb : ℂ) ^ 2 - s.z i * conj w)‖ := by
  unfold Sec.W0
  rw [if_pos hw, Complex.add_re, Complex.re_ofReal_mul, Complex.log_re, Complex.log_re]

theorem WJ_re {s : Sec n} {w : ℂ} (hw : ‖w‖ ≤ s.rb) (P : ℂ) (i : Fin n) (j : ℕ) :
    (P * s.WJ w i j).re = (P * (s.r i / (w - s.z i)) ^ (j + 1)).re
      + s.sigma * (P * ((s.r i * conj w) / ((s.rb : ℂ) ^ 2 - s.z i * conj w)) ^ (j + 1)).re := by
  unfold Sec.WJ
  rw [if_pos hw, mul_add, Complex.add_re]
  congr 1
  rw [← Complex.re_ofReal_mul]
  congr 1
  ring

theorem average_parts {c : ℂ} {R : ℝ} (a : ℝ) {A : Fin n → ℂ → ℝ} {B : Fin n → Fin J → ℂ → ℝ} (hA : ∀ i, CircleIntegrable (A i) c R)
    (hB : ∀ i j, CircleIntegrable (B i j) c R) :
    circleAverage (fun w => a + ∑ i, A i w + ∑ i, ∑ j, B i j w) c R = a + ∑ i, circleAverage (A i) c R + ∑ i, ∑ j, circleAverage (B i j) c R := by
  have h1 : CircleIntegrable (fun w => ∑ i, A i w) c R := CircleIntegrable.fun_sum _ fun i _ => hA i
  have h2 : ∀ i, CircleIntegrable (fun w => ∑ j, B i j w) c R := fun i => CircleIntegrable.fun_sum _ fun j _ => hB i j
  have h3 : CircleIntegrable (fun w => ∑ i, ∑ j, B i j w) c R := CircleIntegrable.fun_sum _ fun i _ => h2 i
  have h4 : CircleIntegrable (fun w => a + ∑ i, A i w) c R := CircleIntegrable.add (circleIntegrable_const a c R) h1
  rw [circleAverage_fun_add h4 h3, circleAverage_fun_add (circleIntegrable_const a c R) h1, circleAverage_const,
    circleAverage_fun_sum fun i _ => hA i, circleAverage_fun_sum fun i _ => h2 i]
  congr 1
  exact Finset.sum_congr rfl fun i _ => circleAverage_fun_sum fun j _ => hB i j

theorem average_lin {c : ℂ} {R : ℝ} (a b : ℝ) {f g : ℂ → ℝ} (hf : CircleIntegrable f c R) (hg : CircleIntegrable g c R) :
    CircleIntegrable (fun w => a * (f w + b * g w)) c R ∧
    circleAverage (fun w => a * (f w + b * g w)) c R = a * (circleAverage f c R + b * circleAverage g c R) := by
  have h1 : CircleIntegrable (fun w => b • g w) c R := hg.const_fun_smul
  have h2 : CircleIntegrable (fun w => f w + b • g w) c R := hf.add h1
  refine ⟨h2.const_fun_smul (a := a), ?_⟩
  show circleAverage (fun w => a • (f w + b • g w)) c R = a • (circleAverage f c R + b • circleAverage g c R)
  rw [circleAverage_fun_smul, circleAverage_fun_add hf h1, circleAverage_fun_smul]

/-- Average of the field on a circle inside of the borehole and outside of the pipes, term by term. -/
theorem field_average (s : Sec n) (Tb : ℝ) (q : Fin n → ℝ) (P : Fin n → Fin J → ℂ) (Tf : Fin n → ℝ) (c : ℂ) (R : ℝ) (hr : ∀ i, 0 < s.r i)
    (hlt : ∀ i, ‖s.z i‖ < s.rb)
    (hp : ∀ w ∈ sphere c |R|, ∀ i, s.r i ≤ ‖w - s.z i‖) (hb : ∀ w ∈ sphere c |R|, ‖w‖ ≤ s.rb) :
    circleAverage (s.field Tb q P Tf) c R = Tb
      + ∑ i, q i * s.pikg * (circleAverage (fun w => log ‖(s.rb : ℂ) / (w - s.z i)‖) c R
          + s.sigma * circleAverage (fun w => log ‖(s.rb : ℂ) ^ 2 / ((s.rb : ℂ) ^ 2 - s.z i * conj w)‖) c R)
      + ∑ i, ∑ j : Fin J, (circleAverage (fun w => (P i j * (s.r i / (w - s.z i)) ^ (j.val + 1)).re) c R
          + s.sigma * circleAverage (fun w => (P i j * ((s.r i * conj w) / ((s.rb : ℂ) ^ 2 - s.z i * conj w)) ^ (j.val + 1)).re) c R) := by
  have hne : ∀ w ∈ sphere c |R|, ∀ i, w - s.z i ≠ 0 := fun w hw i h => by
    have := hp w hw i; rw [h, norm_zero] at this; linarith [hr i]
  have him : ∀ w ∈ sphere c |R|, ∀ i, (s.rb : ℂ) ^ 2 - s.z i * conj w ≠ 0 := fun w hw i => image_ne' (hlt i) (hb w hw)
  have hrb : ∀ i, (s.rb : ℂ) ≠ 0 := fun i => by
    exact_mod_cast (lt_of_le_of_lt (norm_nonneg _) (hlt i)).ne'
  have c1 : ∀ i, CircleIntegrable (fun w => log ‖(s.rb : ℂ) / (w - s.z i)‖) c R := fun i => by
    refine ContinuousOn.circleIntegrable' (ContinuousOn.log (ContinuousOn.norm (ContinuousOn.div (by fun_prop) (by fun_prop) fun w hw => hne w hw i)) fun w hw => ?_)
    exact norm_ne_zero_iff.mpr (div_ne_zero (hrb i) (hne w hw i))
  have c2 : ∀ i, CircleIntegrable (fun w => log ‖(s.rb : ℂ) ^ 2 / ((s.rb : ℂ) ^ 2 - s.z i * conj w)‖) c R := fun i => by
    refine ContinuousOn.circleIntegrable' (ContinuousOn.log (ContinuousOn.norm (ContinuousOn.div (by fun_prop) (by fun_prop) fun w hw => him w hw i)) fun w hw => ?_)
    exact norm_ne_zero_iff.mpr (div_ne_zero (pow_ne_zero _ (hrb i)) (him w hw i))
  have c3 : ∀ i (j : Fin J), CircleIntegrable (fun w => (P i j * (s.r i / (w - s.z i)) ^ (j.val + 1)).re) c R := fun i j => by
    refine ContinuousOn.circleIntegrable' (Complex.continuous_re.comp_continuousOn ?_)
    exact ContinuousOn.mul (by fun_prop) (ContinuousOn.pow (ContinuousOn.div (by fun_prop) (by fun_prop) fun w hw => hne w hw i) _)
  have c4 : ∀ i (j : Fin J), CircleIntegrable (fun w => (P i j * ((s.r i * conj w) / ((s.rb : ℂ) ^ 2 - s.z i * conj w)) ^ (j.val + 1)).re) c R := fun i j => by
    refine ContinuousOn.circleIntegrable' (Complex.continuous_re.comp_continuousOn ?_)
    exact ContinuousOn.mul (by fun_prop) (ContinuousOn.pow (ContinuousOn.div (by fun_prop) (by fun_prop) fun w hw => him w hw i) _)
  have e : circleAverage (s.field Tb q P Tf) c R = circleAverage (fun w => Tb
      + ∑ i, (q i * s.pikg * (log ‖(s.rb : ℂ) / (w - s.z i)‖ + s.sigma * log ‖(s.rb : ℂ) ^ 2 / ((s.rb : ℂ) ^ 2 - s.z i * conj w)‖))
      + ∑ i, ∑ j : Fin J, ((P i j * (s.r i / (w - s.z i)) ^ (j.val + 1)).re
          + s.sigma * (P i j * ((s.r i * conj w) / ((s.rb : ℂ) ^ 2 - s.z i * conj w)) ^ (j.val + 1)).re)) c R := by
    refine circleAverage_congr_sphere fun w hw => ?_
    rw [field_outside s Tb q P Tf hr (hp w hw)]
    simp only [W0_re (hb w hw), WJ_re (hb w hw)]
  rw [e, average_parts Tb (fun i => (average_lin (q i * s.pikg) s.sigma (c1 i) (c2 i)).1) (fun i j => by
    have := (average_lin 1 s.sigma (c3 i j) (c4 i j)).1
    simpa only [one_mul] using this)]
  congr 1
  · congr 1
    exact Finset.sum_congr rfl fun i _ => (average_lin (q i * s.pikg) s.sigma (c1 i) (c2 i)).2
  · refine Finset.sum_congr rfl fun i _ => Finset.sum_congr rfl fun j _ => ?_
    have := (average_lin 1 s.sigma (c3 i j) (c4 i j)).2
    simpa only [one_mul] using this

/-! ### Averages of the terms -/

theorem average_re {g : ℂ → ℂ} {c : ℂ} {R : ℝ} (hg : DifferentiableOn ℂ g (closedBall c |R|)) : circleAverage (fun w => (g w).re) c R = (g c).re := by
  have hi : CircleIntegrable g c R := ContinuousOn.circleIntegrable' (hg.continuousOn.mono sphere_subset_closedBall)
  have h := Complex.reCLM.circleAverage_comp_comm hi
  have hd : DiffContOnCl ℂ g (ball c |R|) := by
    refine ⟨hg.mono ball_subset_closedBall, hg.continuousOn.mono closure_ball_subset_closedBall⟩
  rw [hd.circleAverage] at h
  exact h

/-- Line source inside of the circle. -/
theorem average_log_in {rb : ℝ} (hrb : 0 < rb) {c a : ℂ} {R : ℝ} (hR : 0 < R) (ha : ‖a - c‖ < R) :
    circleAverage (fun w => log ‖(rb : ℂ) / (w - a)‖) c R = log (rb / R) := by
  have hs : ∀ w ∈ sphere c |R|, w - a ≠ 0 := by
    intro w hw h
    rw [abs_of_pos hR, mem_sphere_iff_norm, sub_eq_zero.mp h] at hw
    linarith
  have e : circleAverage (fun w => log ‖(rb : ℂ) / (w - a)‖) c R = circleAverage (fun w => log rb - log ‖w - a‖) c R := by
    refine circleAverage_congr_sphere fun w hw => ?_
    show log ‖(rb : ℂ) / (w - a)‖ = log rb - log ‖w - a‖
    rw [norm_div, Complex.norm_real, Real.norm_of_nonneg hrb.le, log_div hrb.ne' (norm_ne_zero_iff.mpr (hs w hw))]
  have hi : CircleIntegrable (fun w => log ‖w - a‖) c R := by
    refine ContinuousOn.circleIntegrable' (ContinuousOn.log (by fun_prop) fun w hw => norm_ne_zero_iff.mpr (hs w hw))
  rw [e, circleAverage_fun_sub (circleIntegrable_const _ _ _) hi, circleAverage_const, circleAverage_log_norm_sub_const_of_mem_closedBall, log_div hrb.ne' hR.ne']
  rw [mem_closedBall, dist_eq_norm, abs_of_pos hR]; exact ha.le

/-- Line source outside of the circle. -/
theorem average_log_out {rb : ℝ} (hrb : 0 < rb) {c a : ℂ} {R : ℝ} (hR : 0 < R) (ha : R < ‖c - a‖) :
    circleAverage (fun w => log ‖(rb : ℂ) / (w - a)‖) c R = log (rb / ‖c - a‖) := by
  have hne : ∀ w ∈ closedBall c |R|, w - a ≠ 0 := by
    intro w hw h
    rw [abs_of_pos hR, mem_closedBall, dist_eq_norm, sub_eq_zero.mp h, norm_sub_rev] at hw
    linarith
  have hA : AnalyticOnNhd ℂ (fun w => (rb : ℂ) / (w - a)) (closedBall c |R|) := by
    intro w hw
    exact AnalyticAt.div analyticAt_const (analyticAt_id.sub analyticAt_const) (hne w hw)
  rw [hA.circleAverage_log_norm_of_ne_zero fun u hu => div_ne_zero (by exact_mod_cast hrb.ne') (hne u hu)]
  rw [norm_div, Complex.norm_real, Real.norm_of_nonneg hrb.le]

/-- Image of a line source. -/
theorem average_log_image {rb : ℝ} {c a : ℂ} {R : ℝ} (ha : ‖a‖ < rb) (hc : closedBall c |R| ⊆ closedBall 0 rb) :
    circleAverage (fun w => log ‖(rb : ℂ) ^ 2 / ((rb : ℂ) ^ 2 - a * conj w)‖) c R = log ‖(rb : ℂ) ^ 2 / ((rb : ℂ) ^ 2 - a * conj c)‖ := by
  have hrb : 0 < rb := lt_of_le_of_lt (norm_nonneg _) ha
  have hconj : ∀ w, ‖(rb : ℂ) ^ 2 / ((rb : ℂ) ^ 2 - a * conj w)‖ = ‖(rb : ℂ) ^ 2 / ((rb : ℂ) ^ 2 - conj a * w)‖ := by
    intro w
    rw [← RCLike.norm_conj]
    congr 1
    simp only [map_div₀, map_sub, map_mul, map_pow, Complex.conj_ofReal, Complex.conj_conj]
  simp only [hconj]
  have hne : ∀ w ∈ closedBall c |R|, (rb : ℂ) ^ 2 - conj a * w ≠ 0 := fun w hw => image_ne ha (by
    have := hc hw; rwa [mem_closedBall, dist_zero_right] at this)
  have hA : AnalyticOnNhd ℂ (fun w => (rb : ℂ) ^ 2 / ((rb : ℂ) ^ 2 - conj a * w)) (closedBall c |R|) := by
    intro w hw
    exact AnalyticAt.div analyticAt_const (analyticAt_const.sub (analyticAt_const.mul analyticAt_id)) (hne w hw)
  exact hA.circleAverage_log_norm_of_ne_zero fun u hu => div_ne_zero (pow_ne_zero _ (by exact_mod_cast hrb.ne')) (hne u hu)

/-- Multipole inside of the circle. -/
theorem average_pole_in (P : ℂ) (r : ℝ) {c a : ℂ} {R : ℝ} (hR : 0 < R) (ha : ‖a - c‖ < R) (j : ℕ) :
    circleAverage (fun w => (P * ((r : ℂ) / (w - a)) ^ (j + 1)).re) c R = 0 := by
  have hs : ∀ w ∈ sphere c |R|, w - a ≠ 0 := by
    intro w hw h
    rw [abs_of_pos hR, mem_sphere_iff_norm, sub_eq_zero.mp h] at hw
    linarith
  have hne : ∀ w ∈ closedBall c |R|, (R : ℂ) ^ 2 - conj (a - c) * (w - c) ≠ 0 := fun w hw => image_ne ha (by
    rwa [mem_closedBall, dist_eq_norm, abs_of_pos hR] at hw)
  have e : circleAverage (fun w => (P * ((r : ℂ) / (w - a)) ^ (j + 1)).re) c R =
      circleAverage (fun w => (conj P * (r * (w - c) / ((R : ℂ) ^ 2 - conj (a - c) * (w - c))) ^ (j + 1)).re) c R := by
    refine circleAverage_congr_sphere fun w hw => ?_
    have hw' := hw
    rw [abs_of_pos hR, mem_sphere_iff_norm] at hw'
    have hR2 : (R : ℂ) ^ 2 = (w - c) * conj (w - c) := by
      rw [Complex.mul_conj, Complex.normSq_eq_norm_sq, hw']; push_cast; rfl
    have hwc : w - c ≠ 0 := by intro h; rw [h, norm_zero] at hw'; linarith
    have hz : (r : ℂ) / (w - a) = conj (r * (w - c) / ((R : ℂ) ^ 2 - conj (a - c) * (w - c))) := by
      have e1 : (R : ℂ) ^ 2 - conj (a - c) * (w - c) = (w - c) * conj (w - a) := by
        rw [hR2]; simp only [map_sub]; ring
      rw [e1]
      simp only [map_div₀, map_mul, Complex.conj_ofReal, Complex.conj_conj]
      have h1 : conj (w - c) ≠ 0 := (map_ne_zero _).mpr hwc
      have h2 := hs w hw
      field_simp
    show (P * ((r : ℂ) / (w - a)) ^ (j + 1)).re = (conj P * (r * (w - c) / ((R : ℂ) ^ 2 - conj (a - c) * (w - c))) ^ (j + 1)).re
    rw [hz, ← map_pow, ← Complex.conj_re, map_mul, Complex.conj_conj]
  rw [e, average_re]
  · rw [sub_self, mul_zero, zero_div, zero_pow (by omega), mul_zero, Complex.zero_re]
  · intro w hw
    have := hne w hw
    exact DifferentiableAt.differentiableWithinAt (by fun_prop (disch := assumption))

/-- Multipole outside of the circle. -/
theorem average_pole_out (P : ℂ) (r : ℝ) {c a : ℂ} {R : ℝ} (hR : 0 < R) (ha : R < ‖c - a‖) (j : ℕ) :
    circleAverage (fun w => (P * ((r : ℂ) / (w - a)) ^ (j + 1)).re) c R = (P * ((r : ℂ) / (c - a)) ^ (j + 1)).re := by
  have hne : ∀ w ∈ closedBall c |R|, w - a ≠ 0 := by
    intro w hw h
    rw [abs_of_pos hR, mem_closedBall, dist_eq_norm, sub_eq_zero.mp h, norm_sub_rev] at hw
    linarith
  refine average_re (g := fun w => P * ((r : ℂ) / (w - a)) ^ (j + 1)) ?_
  intro w hw
  have := hne w hw
  exact DifferentiableAt.differentiableWithinAt (by fun_prop (disch := assumption))

/-- Image of a multipole. -/
theorem average_pole_image (P : ℂ) (r : ℝ) {rb : ℝ} {c a : ℂ} {R : ℝ} (ha : ‖a‖ < rb) (hc : closedBall c |R| ⊆ closedBall 0 rb) (j : ℕ) :
    circleAverage (fun w => (P * ((r * conj w) / ((rb : ℂ) ^ 2 - a * conj w)) ^ (j + 1)).re) c R =
      (P * ((r * conj c) / ((rb : ℂ) ^ 2 - a * conj c)) ^ (j + 1)).re := by
  have hne : ∀ w ∈ closedBall c |R|, (rb : ℂ) ^ 2 - conj a * w ≠ 0 := fun w hw => image_ne ha (by
    have := hc hw; rwa [mem_closedBall, dist_zero_right] at this)
  have hconj : ∀ w, (P * ((r * conj w) / ((rb : ℂ) ^ 2 - a * conj w)) ^ (j + 1)).re = (conj P * ((r * w) / ((rb : ℂ) ^ 2 - conj a * w)) ^ (j + 1)).re := by
    intro w
    rw [← Complex.conj_re]
    congr 1
    simp only [map_div₀, map_sub, map_mul, map_pow, Complex.conj_ofReal, Complex.conj_conj]
  simp only [hconj]
  refine average_re (g := fun w => conj P * ((r * w) / ((rb : ℂ) ^ 2 - conj a * w)) ^ (j + 1)) ?_
  intro w hw
  have := hne w hw
  exact DifferentiableAt.differentiableWithinAt (by fun_prop (disch := assumption))

end Verif.Pipe.Pole
