import Verif.Pipe.PoleMean

/-!
# Properties C63, C64: mean temperatures of the multipole solution
-/

noncomputable section

namespace Verif.Pipe.Pole

open ComplexConjugate Metric Real

variable {n : ℕ}

/-- **C63.**  The mean of the returned temperatures along the borehole wall is the borehole wall temperature `T_b` that was given, for every number of
multipoles and of iterations. -/
theorem wall_mean (s : Sec n) (h : s.Geo) (Tb : ℝ) (q : Fin n → ℝ) (J : ℕ) (eps : ℝ) (itMax : ℕ) :
    circleAverage (s.multipole Tb q J eps itMax).2.1 0 s.rb = Tb := by
  show circleAverage (s.field Tb q _ _) 0 s.rb = Tb
  have hb := h.rb
  have hc : closedBall (0 : ℂ) |s.rb| ⊆ closedBall 0 s.rb := by rw [abs_of_pos hb]
  rw [field_average s Tb q _ _ 0 s.rb h.r h.lt]
  · have h1 : ∀ i, circleAverage (fun w => log ‖(s.rb : ℂ) / (w - s.z i)‖) 0 s.rb = 0 := fun i => by
      rw [average_log_in hb hb (by rw [sub_zero]; exact h.lt i), div_self hb.ne', log_one]
    have h2 : ∀ i, circleAverage (fun w => log ‖(s.rb : ℂ) ^ 2 / ((s.rb : ℂ) ^ 2 - s.z i * conj w)‖) 0 s.rb = 0 := fun i => by
      have : (s.rb : ℂ) ^ 2 ≠ 0 := pow_ne_zero _ (by exact_mod_cast hb.ne')
      rw [average_log_image (h.lt i) hc, map_zero, mul_zero, sub_zero, div_self this, norm_one, log_one]
    have h3 : ∀ (P : ℂ) i (j : ℕ), circleAverage (fun w => (P * (s.r i / (w - s.z i)) ^ (j + 1)).re) 0 s.rb = 0 := fun P i j =>
      average_pole_in P (s.r i) hb (by rw [sub_zero]; exact h.lt i) j
    have h4 : ∀ (P : ℂ) i (j : ℕ), circleAverage (fun w => (P * ((s.r i * conj w) / ((s.rb : ℂ) ^ 2 - s.z i * conj w)) ^ (j + 1)).re) 0 s.rb = 0 := fun P i j => by
      rw [average_pole_image P (s.r i) (h.lt i) hc j, map_zero, mul_zero, zero_div, zero_pow (by omega), mul_zero, Complex.zero_re]
    simp only [h1, h2, h3, h4, mul_zero, add_zero, Finset.sum_const_zero]
  · intro w hw i
    rw [mem_sphere_iff_norm, sub_zero, abs_of_pos hb] at hw
    have := h.inside i
    have := norm_sub_norm_le w (s.z i)
    linarith
  · intro w hw
    rw [mem_sphere_iff_norm, sub_zero, abs_of_pos hb] at hw
    exact hw.le

/-- **C64.**  The returned fluid temperature of a pipe is the mean of the returned temperatures along the outer perimeter of the pipe, plus the drop of the
pipe's heat flow through the fluid to pipe resistance, for every number of multipoles and of iterations. -/
theorem fluid_mean (s : Sec n) (h : s.Geo) (Tb : ℝ) (q : Fin n → ℝ) (J : ℕ) (eps : ℝ) (itMax : ℕ) (m : Fin n) :
    (s.multipole Tb q J eps itMax).1 m = circleAverage (s.multipole Tb q J eps itMax).2.1 (s.z m) (s.r m) + s.Rfp m * q m := by
  show s.fluid Tb q _ m = circleAverage (s.field Tb q _ _) (s.z m) (s.r m) + s.Rfp m * q m
  obtain ⟨P, hP⟩ : ∃ P, P = (s.poles q J eps itMax).P := ⟨_, rfl⟩
  rw [← hP]
  have hb := h.rb
  have hr := h.r m
  have hc : closedBall (s.z m) |s.r m| ⊆ closedBall 0 s.rb := by
    intro w hw
    rw [mem_closedBall, dist_eq_norm, abs_of_pos hr] at hw
    rw [mem_closedBall, dist_zero_right]
    have := norm_sub_norm_le w (s.z m)
    have := h.inside m
    linarith
  rw [field_average s Tb q P _ (s.z m) (s.r m) h.r h.lt]
  · have hap : ∀ i, m ≠ i → s.r m < ‖s.z m - s.z i‖ := fun i hi => by
      have := h.apart m i hi; have := h.r i; linarith
    have hkg : 2 * π * s.kg ≠ 0 := mul_ne_zero (mul_ne_zero two_ne_zero pi_ne_zero) h.kg.ne'
    have hR : ∀ i, s.R0 m i * q i = q i * s.pikg * (circleAverage (fun w => log ‖(s.rb : ℂ) / (w - s.z i)‖) (s.z m) (s.r m)
        + s.sigma * circleAverage (fun w => log ‖(s.rb : ℂ) ^ 2 / ((s.rb : ℂ) ^ 2 - s.z i * conj w)‖) (s.z m) (s.r m))
        + if m = i then s.Rfp m * q m else 0 := by
      intro i
      rw [average_log_image (h.lt i) hc]
      unfold Sec.R0
      by_cases hi : m = i
      · subst hi
        rw [if_pos rfl, if_pos rfl, average_log_in hb hr (by rw [sub_self, norm_zero]; exact hr)]
        have hpos : 0 < s.rb ^ 2 - ‖s.z m‖ ^ 2 := by
          have := h.lt m; have := norm_nonneg (s.z m); nlinarith
        have e : ‖(s.rb : ℂ) ^ 2 / ((s.rb : ℂ) ^ 2 - s.z m * conj (s.z m))‖ = s.rb ^ 2 / (s.rb ^ 2 - ‖s.z m‖ ^ 2) := by
          have : (s.rb : ℂ) ^ 2 / ((s.rb : ℂ) ^ 2 - s.z m * conj (s.z m)) = ((s.rb ^ 2 / (s.rb ^ 2 - ‖s.z m‖ ^ 2) : ℝ) : ℂ) := by
            rw [Complex.mul_conj, Complex.normSq_eq_norm_sq]; push_cast; rfl
          rw [this, Complex.norm_real, Real.norm_of_nonneg (by positivity)]
        rw [e]
        have hbeta : s.pikg * s.beta m = s.Rfp m := by
          have := h.kg.ne'
          unfold Sec.pikg Sec.beta; field_simp
        linear_combination q m * hbeta
      · rw [if_neg hi, if_neg hi, average_log_out hb hr (hap i hi), add_zero]
        have e : ‖(s.rb : ℂ) ^ 2 / ((s.rb : ℂ) ^ 2 - s.z i * conj (s.z m))‖ = s.rb ^ 2 / ‖(s.rb : ℂ) ^ 2 - conj (s.z m) * s.z i‖ := by
          rw [norm_div, norm_pow, Complex.norm_real, Real.norm_of_nonneg hb.le, mul_comm]
        rw [e]
        ring
    have hJ : ∀ j : Fin J, (∑ i, if m = i then 0 else 1 / (s.z m - s.z i) ^ (j.val + 1) * (P i j * (s.r i : ℂ) ^ (j.val + 1)) : ℂ).re
        + s.sigma * (conj (s.z m) ^ (j.val + 1) * ∑ i, 1 / ((s.rb : ℂ) ^ 2 - conj (s.z m) * s.z i) ^ (j.val + 1) * (P i j * (s.r i : ℂ) ^ (j.val + 1)) : ℂ).re
        = ∑ i, (circleAverage (fun w => (P i j * (s.r i / (w - s.z i)) ^ (j.val + 1)).re) (s.z m) (s.r m)
          + s.sigma * circleAverage (fun w => (P i j * ((s.r i * conj w) / ((s.rb : ℂ) ^ 2 - s.z i * conj w)) ^ (j.val + 1)).re) (s.z m) (s.r m)) := by
      intro j
      rw [Finset.sum_add_distrib, ← Finset.mul_sum, Complex.re_sum, Finset.mul_sum, Complex.re_sum]
      congr 1
      · refine Finset.sum_congr rfl fun i _ => ?_
        by_cases hi : m = i
        · subst hi
          rw [if_pos rfl, average_pole_in (P m j) (s.r m) hr (by rw [sub_self, norm_zero]; exact hr), Complex.zero_re]
        · rw [if_neg hi, average_pole_out (P i j) (s.r i) hr (hap i hi)]
          congr 1
          rw [div_pow]; ring
      · congr 1
        refine Finset.sum_congr rfl fun i _ => ?_
        rw [average_pole_image (P i j) (s.r i) (h.lt i) hc]
        congr 1
        rw [div_pow, mul_pow, mul_comm (s.z i)]; ring
    unfold Sec.fluid
    rw [Finset.sum_congr rfl fun i _ => hR i, Finset.sum_congr rfl fun j _ => hJ j, Finset.sum_add_distrib, Finset.sum_ite_eq, if_pos (Finset.mem_univ m), Finset.sum_comm]
    ring
  · intro w hw i
    rw [mem_sphere_iff_norm, abs_of_pos hr] at hw
    by_cases hi : m = i
    · subst hi; exact hw.ge
    · have := h.apart m i hi
      have h2 := norm_sub_le (w - s.z i) (w - s.z m)
      have e : w - s.z i - (w - s.z m) = s.z m - s.z i := by ring
      rw [e] at h2
      linarith
  · intro w hw
    have := hc (sphere_subset_closedBall hw)
    rwa [mem_closedBall, dist_zero_right] at this

/-- Non-vacuity: two pipes. -/
theorem sampleSec_geo : sampleSec.Geo := by
  refine ⟨by norm_num [sampleSec], fun _ => by norm_num [sampleSec], by norm_num [sampleSec], by norm_num [sampleSec], fun i => ?_, fun i j hij => ?_⟩
  · fin_cases i <;> norm_num [sampleSec]
  · fin_cases i <;> fin_cases j <;> first | exact absurd rfl hij | norm_num [sampleSec]

example : circleAverage (sampleSec.multipole 5 (fun i => if i = 0 then 10 else 20) 2 (1 / 10 ^ 5) 100).2.1 0 (3 / 40) = 5 :=
  wall_mean sampleSec sampleSec_geo 5 _ 2 _ 100

end Verif.Pipe.Pole
