import Verif.FLS.InclModel
import Verif.FLS.TimeProps

/-!
# Lemmas on the finite line source solution for inclined boreholes
-/

noncomputable section

namespace Verif.FLS.Incl

open Real MeasureTheory Bore

/-! ### Integrals along the receiver -/

section kernel
variable {R : ℝ → ℝ} (hR : Continuous R) {L : ℝ} (hL : 0 ≤ L) (hpos : ∀ v ∈ Set.Icc 0 L, 0 < R v) (t : ℝ)
include hR hL hpos

theorem kernel_integrable : Integrable (fun p : ℝ × ℝ => exp (-R p.2 * p.1 ^ 2)) ((volume.restrict (Set.Ioi t)).prod (volume.restrict (Set.Ioc 0 L))) := by
  obtain ⟨m, hm, hmin⟩ := (isCompact_Icc (a := (0 : ℝ)) (b := L)).exists_isMinOn (Set.nonempty_Icc.mpr hL) hR.continuousOn
  have hd := hpos m hm
  have h1 : Integrable (fun s : ℝ => exp (-R m * s ^ 2)) (volume.restrict (Set.Ioi t)) := (integrable_exp_neg_mul_sq hd).restrict
  refine (h1.comp_fst (volume.restrict (Set.Ioc 0 L))).mono' (by apply Continuous.aestronglyMeasurable; fun_prop) ?_
  rw [Measure.prod_restrict]
  filter_upwards [ae_restrict_mem (measurableSet_Ioi.prod measurableSet_Ioc)] with p hp
  rw [norm_of_nonneg (exp_pos _).le]
  refine exp_le_exp.mpr ?_
  have : R m ≤ R p.2 := hmin (Set.Ioc_subset_Icc_self hp.2)
  nlinarith [mul_le_mul_of_nonneg_right this (sq_nonneg p.1)]

theorem kernel_swap : ∫ s in Set.Ioi t, ∫ v in (0 : ℝ)..L, exp (-R v * s ^ 2) = ∫ v in (0 : ℝ)..L, √π / (2 * √(R v)) * (1 - erf (t * √(R v))) := by
  simp only [intervalIntegral.integral_of_le hL]
  rw [integral_integral_swap (kernel_integrable hR hL hpos t)]
  refine setIntegral_congr_fun measurableSet_Ioc fun v hv => ?_
  have hr := hpos v (Set.Ioc_subset_Icc_self hv)
  rw [← gauss_tail (sqrt_pos.mpr hr) t, sq_sqrt hr.le]

theorem kernel_integrableOn : IntegrableOn (fun s => ∫ v in (0 : ℝ)..L, exp (-R v * s ^ 2)) (Set.Ioi t) := by
  simp only [intervalIntegral.integral_of_le hL]
  exact (kernel_integrable hR hL hpos t).integral_prod_left

end kernel

/-! ### One node -/

/-- The square of the distance from the node to the point at `v` of the receiver, as a polynomial. -/
def Q (rr dz k0 k1 k2 H1 u v : ℝ) : ℝ := rr + dz ^ 2 + (u * H1) ^ 2 + v ^ 2 + 2 * (u * H1) * k1 - 2 * v * k2 - 2 * (u * H1) * v * k0

theorem Q_continuous (rr dz k0 k1 k2 H1 u : ℝ) : Continuous (Q rr dz k0 k1 k2 H1 u) := by unfold Q; fun_prop

theorem node_eq (rr dz k0 k1 k2 H1 H2 u : ℝ) {s : ℝ} (hs : s ≠ 0) :
    1 / s * node rr dz k0 k1 k2 H1 H2 u s = 2 / √π * ∫ v in (0 : ℝ)..H2, exp (-Q rr dz k0 k1 k2 H1 u v * s ^ 2) := by
  obtain ⟨c, hc⟩ : ∃ c, c = u * H1 * k0 + k2 := ⟨_, rfl⟩
  have e : ∀ v : ℝ, exp (-Q rr dz k0 k1 k2 H1 u v * s ^ 2)
      = exp (-(rr + dz ^ 2) * s ^ 2 + s ^ 2 * (u ^ 2 * H1 ^ 2 * (k0 ^ 2 - 1) + 2 * u * H1 * (k0 * k2 - k1) + k2 ^ 2)) * exp (-((v - c) * s) ^ 2) := fun v => by
    rw [← exp_add, hc]; congr 1; unfold Q; ring
  simp only [e, intervalIntegral.integral_const_mul]
  have h2 : ∫ v in (0 : ℝ)..H2, exp (-((v - c) * s) ^ 2) = √π / 2 * s⁻¹ * erf ((H2 - c) * s) - √π / 2 * s⁻¹ * erf ((0 - c) * s) := by
    rw [intervalIntegral.integral_comp_sub_right (fun x => exp (-(x * s) ^ 2)) c]
    exact intervalIntegral.integral_eq_sub_of_hasDerivAt (f := fun x => √π / 2 * s⁻¹ * erf (x * s)) (fun x _ => gauss_G' hs x) (Continuous.intervalIntegrable (by fun_prop) _ _)
  rw [h2, show (H2 - c) * s = -((c - H2) * s) by ring, show (0 - c) * s = -(c * s) by ring, erf_neg, erf_neg]
  unfold node
  rw [← hc]
  have := sqrt_pi_pos
  field_simp
  ring

section node
variable {rr dz k0 k1 k2 H1 H2 u : ℝ} (hH : 0 ≤ H2) (hpos : ∀ v ∈ Set.Icc 0 H2, 0 < Q rr dz k0 k1 k2 H1 u v)
include hH hpos

theorem node_integrableOn {a : ℝ} (ha : 0 ≤ a) : IntegrableOn (fun s => 1 / s * node rr dz k0 k1 k2 H1 H2 u s) (Set.Ioi a) := by
  have h := (kernel_integrableOn (Q_continuous rr dz k0 k1 k2 H1 u) hH hpos a).const_mul (2 / √π)
  exact IntegrableOn.congr_fun h (fun s hs => (node_eq rr dz k0 k1 k2 H1 H2 u (ha.trans_lt hs).ne').symm) measurableSet_Ioi

theorem node_integral {a : ℝ} (ha : 0 ≤ a) : ∫ s in Set.Ioi a, 1 / s * node rr dz k0 k1 k2 H1 H2 u s
    = ∫ v in (0 : ℝ)..H2, (1 - erf (a * √(Q rr dz k0 k1 k2 H1 u v))) / √(Q rr dz k0 k1 k2 H1 u v) := by
  rw [setIntegral_congr_fun measurableSet_Ioi fun s (hs : a < s) => node_eq rr dz k0 k1 k2 H1 H2 u (ha.trans_lt hs).ne', integral_const_mul,
    kernel_swap (Q_continuous rr dz k0 k1 k2 H1 u) hH hpos, ← intervalIntegral.integral_const_mul]
  congr 1
  funext v
  have := sqrt_pi_pos
  rcases eq_or_ne (√(Q rr dz k0 k1 k2 H1 u v)) 0 with h | h
  · rw [h]; simp
  · field_simp

omit hH hpos in
theorem node_pos (hH' : 0 < H2) {s : ℝ} (hs : 0 < s) : 0 < 1 / s * node rr dz k0 k1 k2 H1 H2 u s := by
  rw [node_eq _ _ _ _ _ _ _ _ hs.ne']
  have := Q_continuous rr dz k0 k1 k2 H1 u
  refine mul_pos (by have := sqrt_pi_pos; positivity) (intervalIntegral.intervalIntegral_pos_of_pos (Continuous.intervalIntegrable (by fun_prop) _ _) (fun v => exp_pos _) hH')

end node

/-- Steady state of one node. -/
theorem steadyNode_eq {rr dz k0 k1 k2 H1 H2 u : ℝ} (hH : 0 < H2) {b : ℝ} (hb : 0 < b)
    (hQ : ∀ v, Q rr dz k0 k1 k2 H1 u v = b + (v - (u * H1 * k0 + k2)) ^ 2) :
    steadyNode rr dz k0 k1 k2 H1 H2 u = ∫ v in (0 : ℝ)..H2, 1 / √(Q rr dz k0 k1 k2 H1 u v) := by
  obtain ⟨c, hc⟩ : ∃ c, c = u * H1 * k0 + k2 := ⟨_, rfl⟩
  have hd : 0 < √b := sqrt_pos.mpr hb
  have hsq : √b ^ 2 = b := sq_sqrt hb.le
  have h2 : ∫ v in (0 : ℝ)..H2, 1 / √(Q rr dz k0 k1 k2 H1 u v) = log ((H2 - c) + √((H2 - c) ^ 2 + √b ^ 2)) - log ((0 - c) + √((0 - c) ^ 2 + √b ^ 2)) := by
    have e : ∀ v, 1 / √(Q rr dz k0 k1 k2 H1 u v) = 1 / √(√b ^ 2 + (v - c) ^ 2) := fun v => by rw [hQ, hsq, hc]
    simp only [e]
    rw [intervalIntegral.integral_comp_sub_right (fun x => 1 / √(√b ^ 2 + x ^ 2)) c]
    exact intervalIntegral.integral_eq_sub_of_hasDerivAt (f := fun x => log (x + √(x ^ 2 + √b ^ 2))) (fun x _ => steady_G' hd x)
      (Continuous.intervalIntegrable (inv_root_continuous hd) _ _)
  rw [h2]
  have n1 : rr + dz ^ 2 + u ^ 2 * H1 ^ 2 + H2 ^ 2 + 2 * u * H1 * k1 - 2 * H2 * k2 - 2 * u * H1 * H2 * k0 = (H2 - c) ^ 2 + √b ^ 2 := by
    have := hQ H2
    unfold Q at this
    rw [hsq, hc]; linarith
  have n2 : rr + dz ^ 2 + u ^ 2 * H1 ^ 2 + 2 * u * H1 * k1 = (0 - c) ^ 2 + √b ^ 2 := by
    have := hQ 0
    unfold Q at this
    rw [hsq, hc]; linarith
  have p1 := sqrt_gt hd (H2 - c)
  have p2 := sqrt_gt hd (0 - c)
  unfold steadyNode
  rw [n1, n2, ← log_div p1.ne' p2.ne']
  congr 1
  rw [show 2 * H2 * √((H2 - c) ^ 2 + √b ^ 2) + 2 * H2 ^ 2 - 2 * H2 * k2 - 2 * u * H1 * H2 * k0 = 2 * H2 * (H2 - c + √((H2 - c) ^ 2 + √b ^ 2)) by rw [hc]; ring,
    show 2 * H2 * √((0 - c) ^ 2 + √b ^ 2) - 2 * H2 * k2 - 2 * u * H1 * H2 * k0 = 2 * H2 * (0 - c + √((0 - c) ^ 2 + √b ^ 2)) by rw [hc]; ring]
  exact mul_div_mul_left _ _ (by positivity)

end Verif.FLS.Incl
