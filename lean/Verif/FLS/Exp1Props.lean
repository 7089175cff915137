import Verif.FLS.ApproxLemmas
import Mathlib.NumberTheory.Harmonic.GammaDeriv
import Mathlib.Analysis.SpecialFunctions.Complex.LogBounds
import Mathlib.Analysis.SpecialFunctions.Integrals.Basic
import Mathlib.Analysis.Complex.ExponentialBounds

/-!
# Property C91: the formula for the exponential integral is positive and asymptotically exact at both ends
-/

noncomputable section

namespace Verif.FLS

open Real MeasureTheory Set Filter Topology

/-! ### The constants -/

/-- `G`. -/
def cG : ℝ := exp (-eulerMascheroniConstant)
/-- `b`. -/
def cb : ℝ := √(2 * (1 - cG) / (cG * (2 - cG)))
/-- `h`. -/
def ch (x : ℝ) : ℝ := 1 / (1 + x * √x) + (1 - cG) * (cG ^ 2 - 6 * cG + 12) / (3 * cG * (2 - cG) ^ 2 * cb) * (20 / 47 * x ^ √(31 / 26)) / (1 + 20 / 47 * x ^ √(31 / 26))
/-- The argument of the logarithm less one. -/
def cu (x : ℝ) : ℝ := cG / x - (1 - cG) / (ch x + cb * x) ^ 2
/-- The factor of the logarithm. -/
def cc (x : ℝ) : ℝ := exp (-x) / (cG + (1 - cG) * exp (-x / (1 - cG)))

theorem exp1_eq (x : ℝ) : exp1 x = cc x * log (1 + cu x) := by
  unfold exp1 cc cu ch cb cG
  dsimp only
  rw [add_sub_assoc]
  ring

theorem cG_lt : cG < 1 := by
  unfold cG
  rw [exp_lt_one_iff]
  linarith [one_half_lt_eulerMascheroniConstant]

theorem cG_gt : 1 / 2 < cG := by
  unfold cG
  have h1 : exp (2 / 3) < 2 := by
    refine lt_of_pow_lt_pow_left₀ 3 (by norm_num) ?_
    rw [← exp_nat_mul, show ((3 : ℕ) : ℝ) * (2 / 3) = 1 + 1 by norm_num, exp_add]
    nlinarith [exp_one_lt_d9, exp_pos (1 : ℝ)]
  have h2 : exp eulerMascheroniConstant < 2 := (exp_lt_exp.mpr eulerMascheroniConstant_lt_two_thirds).trans h1
  rw [exp_neg, one_div]
  exact inv_strictAnti₀ (exp_pos _) h2

theorem cb_sq : cb ^ 2 = 2 * (1 - cG) / (cG * (2 - cG)) := by
  have := cG_lt; have := cG_gt
  unfold cb
  exact sq_sqrt (div_nonneg (by linarith) (mul_nonneg (by linarith) (by linarith)))

theorem cb_pos : 0 < cb := by
  have h1 := cG_lt; have h2 := cG_gt
  unfold cb
  exact sqrt_pos.mpr (div_pos (by linarith) (mul_pos (by linarith) (by linarith)))

theorem ch_ge {x : ℝ} (hx : 0 < x) : 1 / (1 + x * √x) ≤ ch x := by
  have h1 := cG_lt; have h2 := cG_gt; have h3 := cb_pos
  unfold ch
  have hq : 0 ≤ 20 / 47 * x ^ √(31 / 26) := by positivity
  have : 0 ≤ (1 - cG) * (cG ^ 2 - 6 * cG + 12) / (3 * cG * (2 - cG) ^ 2 * cb) :=
    div_nonneg (mul_nonneg (by linarith) (by nlinarith)) (by have : 0 < cG := by linarith
                                                             positivity)
  have := div_nonneg (mul_nonneg this hq) (by linarith : 0 ≤ 1 + 20 / 47 * x ^ √(31 / 26))
  linarith

theorem ch_pos {x : ℝ} (hx : 0 < x) : 0 < ch x := lt_of_lt_of_le (by positivity) (ch_ge hx)

theorem cu_pos {x : ℝ} (hx : 0 < x) : 0 < cu x := by
  have h1 := cG_lt; have h2 := cG_gt; have hb := cb_pos; have hh := ch_pos hx; have hb2 := cb_sq
  have key : (1 - cG) * x < cG * (ch x + cb * x) ^ 2 := by
    have hd : 0 < cG * (2 - cG) := mul_pos (by linarith) (by linarith)
    rw [eq_div_iff hd.ne'] at hb2
    rcases le_or_gt 1 x with h | h
    · have e : cb ^ 2 * cG ≥ 1 - cG := by
        have : cb ^ 2 * cG * (2 - cG) = 2 * (1 - cG) := by linarith
        by_contra hc
        push Not at hc
        nlinarith
      have : (1 - cG) * x ≤ cG * (cb * x) ^ 2 := by
        have h5 : (1 - cG) * x ≤ (cb ^ 2 * cG) * x := by nlinarith
        have h6 : (cb ^ 2 * cG) * x ≤ (cb ^ 2 * cG) * x ^ 2 := mul_le_mul_of_nonneg_left (by nlinarith) (by positivity)
        nlinarith
      have h7 : (cb * x) ^ 2 < (ch x + cb * x) ^ 2 := by
        have : 0 < cb * x := by positivity
        nlinarith
      nlinarith
    · have hge : 1 / 2 ≤ ch x := by
        refine le_trans ?_ (ch_ge hx)
        have hs : √x ≤ 1 := sqrt_le_one.mpr h.le
        have : x * √x ≤ 1 := mul_le_one₀ h.le (sqrt_nonneg x) hs
        exact one_div_le_one_div_of_le (by positivity) (by linarith)
      have h4 : 2 * (cb * x) ≤ (ch x + cb * x) ^ 2 := by
        have : 0 < cb * x := by positivity
        nlinarith [sq_nonneg (ch x - cb * x)]
      have h5 : 1 - cG < 2 * cG * cb := by
        refine lt_of_pow_lt_pow_left₀ 2 (by positivity) ?_
        have h6 : (2 * cG * cb) ^ 2 * (2 - cG) = 8 * cG * (1 - cG) := by linear_combination (4 * cG) * hb2
        have h7 : (1 - cG) ^ 2 * (2 - cG) < 8 * cG * (1 - cG) := by nlinarith [mul_pos (by linarith : 0 < 1 - cG) (by linarith : 0 < cG)]
        by_contra hc
        push Not at hc
        nlinarith
      nlinarith
  unfold cu
  have h8 : (0 : ℝ) < (ch x + cb * x) ^ 2 := by positivity
  rw [sub_pos, div_lt_div_iff₀ h8 hx]
  exact key

theorem cc_pos (x : ℝ) : 0 < cc x := by
  have h1 := cG_lt; have h2 := cG_gt
  have := mul_pos (by linarith : 0 < 1 - cG) (exp_pos (-x / (1 - cG)))
  exact div_pos (exp_pos _) (by linarith)

/-- **C91**: the formula is defined and positive for every positive argument. -/
theorem exp1_pos {x : ℝ} (hx : 0 < x) : 0 < exp1 x := by
  rw [exp1_eq]
  exact mul_pos (cc_pos x) (log_pos (by linarith [cu_pos hx]))

/-! ### Large arguments -/

theorem E1_le {x : ℝ} (hx : 0 < x) : E1 x ≤ exp (-x) / x := by
  have h : IntegrableOn (fun u : ℝ => exp (-u) * x⁻¹) (Ioi x) := by
    have := exp_neg_integrableOn_Ioi x (b := 1) one_pos
    simp only [neg_mul, one_mul] at this
    exact this.mul_const _
  refine (setIntegral_mono_on (E1_integrableOn hx) h measurableSet_Ioi fun u hu => ?_).trans (le_of_eq ?_)
  · have hu' : x < u := hu
    rw [div_eq_mul_inv]
    exact mul_le_mul_of_nonneg_left (inv_anti₀ hx hu'.le) (exp_pos _).le
  · rw [integral_mul_const, integral_exp_neg_Ioi, div_eq_mul_inv]

theorem E1_ge {x : ℝ} (hx : 0 < x) : exp (-x) / (x + 1) ≤ E1 x := by
  have hd : ∀ u, x ≤ u → HasDerivAt (fun u => -(exp (-u) / (u + 1))) (exp (-u) * (u + 2) / (u + 1) ^ 2) u := fun u hu => by
    have h0 : u + 1 ≠ 0 := by linarith
    have h1 : HasDerivAt (fun u : ℝ => exp (-u)) (-exp (-u)) u := by simpa using (hasDerivAt_neg u).exp
    refine ((h1.div ((hasDerivAt_id u).add_const 1) h0).neg).congr_deriv ?_
    simp only [id]
    field_simp
    ring
  have ht : Tendsto (fun u : ℝ => -(exp (-u) / (u + 1))) atTop (𝓝 0) := by
    have h1 : Tendsto (fun u : ℝ => exp (-u)) atTop (𝓝 0) := tendsto_exp_neg_atTop_nhds_zero
    have h2 : Tendsto (fun u : ℝ => u + 1) atTop atTop := tendsto_atTop_add_const_right _ _ tendsto_id
    simpa using (h1.div_atTop h2).neg
  have hn : ∀ u ∈ Ioi x, 0 ≤ exp (-u) * (u + 2) / (u + 1) ^ 2 := fun u hu => by
    have : 0 < u := hx.trans hu
    positivity
  have hi := integrableOn_Ioi_deriv_of_nonneg (hd x le_rfl).continuousAt.continuousWithinAt (fun u hu => hd u (le_of_lt hu)) hn ht
  have h := integral_Ioi_of_hasDerivAt_of_tendsto (hd x le_rfl).continuousAt.continuousWithinAt (fun u hu => hd u (le_of_lt hu)) hi ht
  rw [zero_sub, neg_neg] at h
  rw [← h]
  refine setIntegral_mono_on hi (E1_integrableOn hx) measurableSet_Ioi fun u hu => ?_
  have h0 : 0 < u := hx.trans hu
  rw [div_le_div_iff₀ (by positivity) h0]
  have := exp_pos (-u)
  nlinarith

theorem E1_pos {x : ℝ} (hx : 0 < x) : 0 < E1 x := lt_of_lt_of_le (by positivity) (E1_ge hx)

theorem E1_atTop : Tendsto (fun x => x * exp x * E1 x) atTop (𝓝 1) := by
  have h1 : Tendsto (fun x : ℝ => x / (x + 1)) atTop (𝓝 1) := by
    have h2 : Tendsto (fun x : ℝ => 1 - (x + 1)⁻¹) atTop (𝓝 1) := by
      have := (tendsto_inv_atTop_zero.comp (tendsto_atTop_add_const_right atTop (1 : ℝ) tendsto_id)).const_sub 1
      simpa using this
    refine h2.congr' ?_
    filter_upwards [eventually_gt_atTop 0] with x hx
    field_simp
    ring
  refine tendsto_of_tendsto_of_tendsto_of_le_of_le' h1 tendsto_const_nhds ?_ ?_
  · filter_upwards [eventually_gt_atTop 0] with x hx
    have := mul_le_mul_of_nonneg_left (E1_ge hx) (by positivity : 0 ≤ x * exp x)
    refine le_trans (le_of_eq ?_) this
    rw [exp_neg]
    field_simp
  · filter_upwards [eventually_gt_atTop 0] with x hx
    have := mul_le_mul_of_nonneg_left (E1_le hx) (by positivity : 0 ≤ x * exp x)
    refine this.trans (le_of_eq ?_)
    rw [exp_neg]
    field_simp

theorem cu_atTop : Tendsto (fun x => x * cu x) atTop (𝓝 cG) := by
  have h1 := cG_lt; have hb := cb_pos
  have h2 : Tendsto (fun x : ℝ => (1 - cG) / cb ^ 2 * x⁻¹) atTop (𝓝 0) := by simpa using (tendsto_inv_atTop_zero (𝕜 := ℝ)).const_mul ((1 - cG) / cb ^ 2)
  have h3 : Tendsto (fun x : ℝ => x * ((1 - cG) / (ch x + cb * x) ^ 2)) atTop (𝓝 0) := by
    refine squeeze_zero' ?_ ?_ h2
    · filter_upwards [eventually_gt_atTop 0] with x hx
      have : 0 ≤ 1 - cG := by linarith
      positivity
    · filter_upwards [eventually_gt_atTop 0] with x hx
      have hh := ch_pos hx
      have : 0 < cb * x := by positivity
      have h4 : (cb * x) ^ 2 ≤ (ch x + cb * x) ^ 2 := pow_le_pow_left₀ this.le (by linarith) 2
      have h5 : (1 - cG) / (ch x + cb * x) ^ 2 ≤ (1 - cG) / (cb * x) ^ 2 := div_le_div_of_nonneg_left (by linarith) (by positivity) h4
      calc x * ((1 - cG) / (ch x + cb * x) ^ 2) ≤ x * ((1 - cG) / (cb * x) ^ 2) := mul_le_mul_of_nonneg_left h5 hx.le
        _ = _ := by field_simp
  have h6 := h3.const_sub cG
  rw [sub_zero] at h6
  refine h6.congr' ?_
  filter_upwards [eventually_gt_atTop 0] with x hx
  unfold cu
  field_simp

/-- **C91**: for large arguments the ratio of the formula and the exponential integral tends to 1. -/
theorem exp1_atTop : Tendsto (fun x => exp1 x / E1 x) atTop (𝓝 1) := by
  have h1 := cG_lt; have h2 := cG_gt
  have a : Tendsto (fun x => x * log (1 + cu x)) atTop (𝓝 cG) := tendsto_mul_log_one_add_of_tendsto cu_atTop
  have b : Tendsto (fun x => cG + (1 - cG) * exp (-x / (1 - cG))) atTop (𝓝 cG) := by
    have h3 : Tendsto (fun x : ℝ => exp (-x / (1 - cG))) atTop (𝓝 0) :=
      tendsto_exp_atBot.comp (tendsto_neg_atTop_atBot.atBot_div_const (by linarith))
    simpa using (h3.const_mul (1 - cG)).const_add cG
  have c := (a.div b (by linarith : cG ≠ 0)).div E1_atTop one_ne_zero
  rw [div_self (by linarith : cG ≠ 0), div_one] at c
  refine c.congr' ?_
  filter_upwards [eventually_gt_atTop 0] with x hx
  simp only [Pi.div_apply]
  have hE := E1_pos hx
  rw [exp1_eq, cc, exp_neg]
  have : 0 < cG + (1 - cG) * exp (-x / (1 - cG)) := by
    have := mul_pos (by linarith : 0 < 1 - cG) (exp_pos (-x / (1 - cG)))
    linarith
  field_simp

/-! ### Small arguments -/

theorem log_exp_integrableOn : IntegrableOn (fun t : ℝ => log t * exp (-t)) (Ioi 0) := by
  have hm : AEStronglyMeasurable (fun t : ℝ => log t * exp (-t)) volume := (measurable_log.mul (by fun_prop)).aestronglyMeasurable
  rw [← Ioc_union_Ioi_eq_Ioi (zero_le_one (α := ℝ)), integrableOn_union]
  constructor
  · have hl : IntegrableOn log (Ioc 0 1) := (intervalIntegrable_iff_integrableOn_Ioc_of_le zero_le_one).mp intervalIntegral.intervalIntegrable_log'
    refine Integrable.mono hl hm.restrict ((ae_restrict_mem measurableSet_Ioc).mono fun t ht => ?_)
    rw [norm_mul, norm_of_nonneg (exp_pos _).le]
    exact mul_le_of_le_one_right (norm_nonneg _) (exp_le_one_iff.mpr (by linarith [ht.1]))
  · have hg : IntegrableOn (fun t : ℝ => exp (-t) * t ^ ((2 : ℝ) - 1)) (Ioi 1) := (GammaIntegral_convergent two_pos).mono_set (Ioi_subset_Ioi zero_le_one)
    refine Integrable.mono' hg hm.restrict ((ae_restrict_mem measurableSet_Ioi).mono fun t ht => ?_)
    have h1 : (1 : ℝ) < t := ht
    rw [norm_mul, norm_of_nonneg (exp_pos _).le, norm_of_nonneg (log_nonneg h1.le), mul_comm, show (2 : ℝ) - 1 = 1 by norm_num, rpow_one]
    exact mul_le_mul_of_nonneg_left ((log_le_sub_one_of_pos (by linarith)).trans (by linarith)) (exp_pos _).le

theorem log_exp_integral : ∫ t in Ioi (0 : ℝ), log t * exp (-t) = -eulerMascheroniConstant := by
  have h1 := Complex.hasDerivAt_GammaIntegral (s := 1) (by norm_num)
  have h2 := Complex.hasDerivAt_Gamma_one
  have h3 : Complex.Gamma =ᶠ[𝓝 1] Complex.GammaIntegral := by
    have : {s : ℂ | 0 < s.re} ∈ 𝓝 (1 : ℂ) := (isOpen_lt continuous_const Complex.continuous_re).mem_nhds (by norm_num)
    filter_upwards [this] with s hs using Complex.Gamma_eq_integral hs
  have h4 := (h2.congr_of_eventuallyEq h3.symm).unique h1
  simp only [sub_self, Complex.cpow_zero, one_mul] at h4
  have h5 : ∫ t in Ioi (0 : ℝ), ((log t : ℂ) * (exp (-t) : ℂ)) = ((∫ t in Ioi (0 : ℝ), log t * exp (-t) : ℝ) : ℂ) := by
    rw [← integral_complex_ofReal]
    simp
  rw [h5] at h4
  exact_mod_cast h4.symm

theorem E1_parts {x : ℝ} (hx : 0 < x) : E1 x = (∫ t in Ioi x, log t * exp (-t)) - exp (-x) * log x := by
  have hd : ∀ u, x ≤ u → HasDerivAt (fun u => exp (-u) * log u) (exp (-u) / u - log u * exp (-u)) u := fun u hu => by
    have h0 : u ≠ 0 := by linarith
    have h1 : HasDerivAt (fun u : ℝ => exp (-u)) (-exp (-u)) u := by simpa using (hasDerivAt_neg u).exp
    refine (h1.mul (hasDerivAt_log h0)).congr_deriv ?_
    rw [div_eq_mul_inv]
    ring
  have ht : Tendsto (fun u : ℝ => exp (-u) * log u) atTop (𝓝 0) := by
    have h1 : Tendsto (fun u : ℝ => u ^ 1 * exp (-u)) atTop (𝓝 0) := tendsto_pow_mul_exp_neg_atTop_nhds_zero 1
    refine squeeze_zero' ?_ ?_ h1
    · filter_upwards [eventually_ge_atTop 1] with u hu
      have := log_nonneg hu
      positivity
    · filter_upwards [eventually_ge_atTop 1] with u hu
      rw [pow_one, mul_comm]
      exact mul_le_mul_of_nonneg_right ((log_le_sub_one_of_pos (by linarith)).trans (by linarith)) (exp_pos _).le
  have i1 := E1_integrableOn hx
  have i2 : IntegrableOn (fun t : ℝ => log t * exp (-t)) (Ioi x) := log_exp_integrableOn.mono_set (Ioi_subset_Ioi hx.le)
  have h := integral_Ioi_of_hasDerivAt_of_tendsto (hd x le_rfl).continuousAt.continuousWithinAt (fun u hu => hd u (le_of_lt hu)) (i1.sub i2) ht
  rw [integral_sub i1 i2] at h
  unfold E1
  linarith

/-- `(f x - f 0) log x` vanishes at zero for differentiable `f`. -/
theorem mul_log_zero {f : ℝ → ℝ} {f' : ℝ} (hf : HasDerivAt f f' 0) : Tendsto (fun x => (f x - f 0) * log x) (𝓝[>] 0) (𝓝 0) := by
  have h1 : Tendsto (fun x => x⁻¹ * (f x - f 0)) (𝓝[>] 0) (𝓝 f') := by
    have := hf.tendsto_slope_zero_right
    simpa using this
  have h2 : Tendsto (fun x : ℝ => log x * x) (𝓝[>] 0) (𝓝 0) := by
    have := tendsto_log_mul_rpow_nhdsGT_zero one_pos
    simpa using this
  have h3 := h1.mul h2
  rw [mul_zero] at h3
  refine h3.congr' ?_
  filter_upwards [self_mem_nhdsWithin] with x hx
  have hx' : (0 : ℝ) < x := hx
  field_simp

theorem E1_zero : Tendsto (fun x => E1 x + log x) (𝓝[>] 0) (𝓝 (-eulerMascheroniConstant)) := by
  have h1 : Tendsto (fun x => ∫ t in Ioi x, log t * exp (-t)) (𝓝[>] 0) (𝓝 (-eulerMascheroniConstant)) := by
    rw [← log_exp_integral]
    have hc : AECover (volume.restrict (Ioi (0 : ℝ))) (𝓝[>] (0 : ℝ)) fun x => Ioi x := aecover_Ioi_of_Ioi (tendsto_id.mono_left nhdsWithin_le_nhds)
    have := hc.integral_tendsto_of_countably_generated log_exp_integrableOn
    refine this.congr' ?_
    filter_upwards [self_mem_nhdsWithin] with x hx
    have hx' : (0 : ℝ) < x := hx
    rw [Measure.restrict_restrict measurableSet_Ioi, Ioi_inter_Ioi, sup_eq_left.mpr hx'.le]
  have h2 : HasDerivAt (fun x : ℝ => exp (-x)) (-1) 0 := by simpa using (hasDerivAt_neg (0 : ℝ)).exp
  have h3 := h1.sub (mul_log_zero h2)
  rw [sub_zero] at h3
  refine h3.congr' ?_
  filter_upwards [self_mem_nhdsWithin] with x hx
  rw [E1_parts hx]
  simp
  ring

theorem ch_zero : Tendsto ch (𝓝[>] 0) (𝓝 1) := by
  have hp : 0 < √(31 / 26 : ℝ) := by positivity
  have h1 : Tendsto (fun x : ℝ => 20 / 47 * x ^ √(31 / 26 : ℝ)) (𝓝[>] 0) (𝓝 0) := by
    have : ContinuousAt (fun x : ℝ => 20 / 47 * x ^ √(31 / 26 : ℝ)) 0 := (continuousAt_rpow_const 0 _ (Or.inr hp.le)).const_mul _
    have h := this.tendsto
    rw [zero_rpow hp.ne', mul_zero] at h
    exact h.mono_left nhdsWithin_le_nhds
  have h2 : Tendsto (fun x : ℝ => 1 / (1 + x * √x)) (𝓝[>] 0) (𝓝 1) := by
    have : ContinuousAt (fun x : ℝ => 1 / (1 + x * √x)) 0 := ContinuousAt.div continuousAt_const (by fun_prop) (by simp)
    have h := this.tendsto
    simp only [zero_mul, add_zero, div_one] at h
    exact h.mono_left nhdsWithin_le_nhds
  have h3 := h2.add ((h1.const_mul ((1 - cG) * (cG ^ 2 - 6 * cG + 12) / (3 * cG * (2 - cG) ^ 2 * cb))).div (h1.const_add 1) (by norm_num))
  simp only [mul_zero, add_zero, zero_div] at h3
  exact h3

theorem cc_zero : cc 0 = 1 := by
  unfold cc
  simp

theorem exp1_zero : Tendsto (fun x => exp1 x + log x) (𝓝[>] 0) (𝓝 (-eulerMascheroniConstant)) := by
  have g1 := cG_lt; have g2 := cG_gt
  have hid : Tendsto (fun x : ℝ => x) (𝓝[>] 0) (𝓝 0) := tendsto_id.mono_left nhdsWithin_le_nhds
  have h1 : Tendsto (fun x => x * (1 + cu x)) (𝓝[>] 0) (𝓝 cG) := by
    have h2 : Tendsto (fun x => x + cG - x * ((1 - cG) / (ch x + cb * x) ^ 2)) (𝓝[>] 0) (𝓝 cG) := by
      have h3 := (ch_zero.add (hid.const_mul cb)).pow 2
      have h4 := (hid.add_const cG).sub (hid.mul ((tendsto_const_nhds (x := 1 - cG)).div h3 (by norm_num)))
      simpa using h4
    refine h2.congr' ?_
    filter_upwards [self_mem_nhdsWithin] with x hx
    have hx' : (0 : ℝ) < x := hx
    unfold cu
    field_simp
    ring
  have hl : Tendsto (fun x => log (x * (1 + cu x))) (𝓝[>] 0) (𝓝 (-eulerMascheroniConstant)) := by
    have := (continuousAt_log (by linarith : cG ≠ 0)).tendsto.comp h1
    unfold cG at this
    rw [log_exp] at this
    exact this
  have hd : DifferentiableAt ℝ cc 0 := by
    unfold cc
    refine DifferentiableAt.div (by fun_prop) (by fun_prop) ?_
    simp
  have hc : Tendsto cc (𝓝[>] 0) (𝓝 1) := by
    have := hd.continuousAt.tendsto
    rw [cc_zero] at this
    exact this.mono_left nhdsWithin_le_nhds
  have h5 := (hc.mul hl).sub (mul_log_zero hd.hasDerivAt)
  rw [one_mul, sub_zero] at h5
  refine h5.congr' ?_
  filter_upwards [self_mem_nhdsWithin] with x hx
  have hx' : (0 : ℝ) < x := hx
  rw [exp1_eq, cc_zero, log_mul hx'.ne' (by linarith [cu_pos hx'])]
  ring

/-- **C91**: for small arguments the formula and the exponential integral have the same limit: their difference vanishes. -/
theorem exp1_nhds_zero : Tendsto (fun x => exp1 x - E1 x) (𝓝[>] 0) (𝓝 0) := by
  have := exp1_zero.sub E1_zero
  rw [sub_self] at this
  exact this.congr fun x => by ring

/-- A value at which the formula applies. -/
example : 0 < exp1 (25 / 4) := exp1_pos (by norm_num)

end Verif.FLS
