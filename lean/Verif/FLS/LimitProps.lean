import Verif.FLS.SlowProps
import Verif.FLS.LogProps

/-!
# Property C131: at short times a borehole responds like an infinite line source

For a vertical borehole the finite line source at the borehole wall lies below the infinite line
source `E1 (r_b^2 / (4 alpha t)) / 2` and above it times `1 - 3 sqrt (alpha t / pi) / H` (`2` in place of `3` without
mirror source), and the infinite line source is `(ln (4 alpha t / r_b^2) - gamma) / 2` within
`r_b^2 / (8 alpha t)`.
-/

noncomputable section

namespace Verif.FLS

open Real MeasureTheory Set Filter Topology Exp1Check

/-! ### The difference between `x` and `erfint x` -/

def defect (x : ℝ) : ℝ := x - erfint x

theorem defect_mono : Monotone defect := by
  have hd : ∀ x, HasDerivAt defect (1 - erf x) x := fun x => (hasDerivAt_id x).sub (hasDerivAt_erfint x)
  refine monotone_of_deriv_nonneg (fun x => (hd x).differentiableAt) fun x => ?_
  rw [(hd x).deriv]
  exact sub_nonneg.mpr (erf_le_one x)

theorem defect_nonneg {x : ℝ} (hx : 0 ≤ x) : 0 ≤ defect x := by
  have := defect_mono hx
  simpa [defect, erfint_zero] using this

theorem defect_le {x : ℝ} (hx : 0 ≤ x) : defect x ≤ 1 / √π := by
  rcases hx.eq_or_lt with h | h
  · rw [← h]
    simp only [defect, erfint_zero, sub_zero]
    positivity
  · have h1 := gauss_sq_integral (c := 1) (a := x) one_pos h
    have h2 : 0 ≤ ∫ s in Ioi x, exp (-1 ^ 2 * s ^ 2) / s ^ 2 := setIntegral_nonneg measurableSet_Ioi fun s _ => by positivity
    rw [h1, erfc_eq, mul_one, one_mul] at h2
    have hp := sqrt_pi_pos
    have h3 : x * √π * (1 - erf x) ≤ exp (-x ^ 2) := by
      have := mul_le_mul_of_nonneg_left h2 h.le
      rw [mul_zero, mul_sub, mul_div_cancel₀ _ h.ne'] at this
      have e : -(1 : ℝ) ^ 2 * x ^ 2 = -x ^ 2 := by ring
      rw [e] at this
      linarith
    have h4 : x * (1 - erf x) ≤ 1 / √π * exp (-x ^ 2) := by
      rw [one_div, inv_mul_eq_div, le_div_iff₀ hp]
      linarith
    unfold defect erfint
    linarith

theorem ramp_defect {q s : ℝ} (hs : 0 < s) : ramp q s = q - defect (q * s) / s := by
  unfold ramp defect
  field_simp
  ring

/-! ### Bounds of the integrand -/

variable {d D H : ℝ}

theorem rea_eq {s : ℝ} (hs : 0 < s) : integrand ⟨d, H, D, H, D⟩ true false s = (2 * H - 2 * defect (H * s) / s) * (exp (-d ^ 2 * s ^ 2) / s) := by
  simp only [integrand, Bool.and_false, Bool.false_eq_true, if_false, if_true, Pair.qRea, inner4, List.map_cons, List.map_nil, List.zipWith_cons_cons, List.zipWith_nil_left, List.sum_cons,
    List.sum_nil, zpow_neg]
  rw [show s ^ (2 : ℤ) = s ^ 2 by norm_cast, show (D - D + H) * s = H * s by ring, show (D - D) * s = 0 by ring, show (D - D - H) * s = -(H * s) by ring, show (D - D + H - H) * s = 0 by ring,
    erfint_neg, erfint_zero]
  have e : erfint (H * s) = H * s - defect (H * s) := by unfold defect; ring
  rw [e]
  field_simp
  ring

theorem all_eq {s : ℝ} (hs : 0 < s) : integrand ⟨d, H, D, H, D⟩ true true s
    = (2 * H - (2 * defect (H * s) + 2 * defect ((2 * D + H) * s) - defect (2 * D * s) - defect ((2 * D + 2 * H) * s)) / s) * (exp (-d ^ 2 * s ^ 2) / s) := by
  simp only [integrand, Bool.and_true, if_true, Pair.qAll, inner8, List.map_cons, List.map_nil, List.zipWith_cons_cons, List.zipWith_nil_left, List.sum_cons,
    List.sum_nil, zpow_neg]
  rw [show s ^ (2 : ℤ) = s ^ 2 by norm_cast, show (D - D + H) * s = H * s by ring, show (D - D) * s = 0 by ring, show (D - D - H) * s = -(H * s) by ring, show (D - D + H - H) * s = 0 by ring,
    show (D + D + H) * s = (2 * D + H) * s by ring, show (D + D) * s = 2 * D * s by ring, show (D + D + H + H) * s = (2 * D + 2 * H) * s by ring,
    erfint_neg, erfint_zero]
  have e : ∀ x, erfint x = x - defect x := fun x => by unfold defect; ring
  rw [e, e ((2 * D + H) * s), e (2 * D * s), e ((2 * D + 2 * H) * s)]
  field_simp
  ring

/-- A bound of the integrand from below gives one of the response. -/
theorem fls_lower {alpha t : ℝ} (ha : 0 < alpha) (ht : 0 < t) (hd : 0 < d) (hH : 0 < H) (img : Bool) {c : ℝ} (hc : 0 ≤ c)
    (hb : ∀ s, 0 < s → (2 * H - c / √π / s) * (exp (-d ^ 2 * s ^ 2) / s) ≤ integrand ⟨d, H, D, H, D⟩ true img s) :
    (1 - c * √(alpha * t / π) / H) * (E1 (d ^ 2 / (4 * alpha * t)) / 2) ≤ fls t alpha ⟨d, H, D, H, D⟩ true img := by
  have hl := lower_pos ha ht
  have hp := sqrt_pi_pos
  have e0 : d ^ 2 * lower alpha t ^ 2 = d ^ 2 / (4 * alpha * t) := by rw [lower_sq ha ht]; field_simp
  have e1 : √(alpha * t / π) = 1 / (2 * lower alpha t) / √π := by
    rw [sqrt_div (by positivity)]
    congr 1
    unfold lower
    rw [mul_assoc, sqrt_mul (by norm_num : (0 : ℝ) ≤ 4) (alpha * t), show √(4 : ℝ) = 2 by rw [show (4 : ℝ) = 2 ^ 2 by norm_num, sqrt_sq (by norm_num)]]
    have : √(alpha * t) ≠ 0 := (sqrt_pos.mpr (by positivity)).ne'
    field_simp
  have hi := gauss_div_integrableOn (k := d ^ 2) (by positivity) hl
  have hm : ∫ s in Ioi (lower alpha t), (2 * H - c / √π / lower alpha t) * (exp (-d ^ 2 * s ^ 2) / s) ≤ quad (integrand ⟨d, H, D, H, D⟩ true img) (lower alpha t) none := by
    refine setIntegral_mono_on (hi.const_mul _) (integrand_integrableOn ⟨hd, hH.le, hH⟩ true img hl.le) measurableSet_Ioi fun s hs => ?_
    have hs' : lower alpha t < s := hs
    have h0 : 0 < s := hl.trans hs'
    refine (mul_le_mul_of_nonneg_right (sub_le_sub_left ?_ _) (by positivity)).trans (hb s h0)
    exact div_le_div_of_nonneg_left (by positivity) hl hs'.le
  rw [integral_const_mul, gauss_div_integral (by positivity) hl, e0] at hm
  have := mul_le_mul_of_nonneg_left hm (show 0 ≤ 0.5 / H by positivity)
  refine le_trans (le_of_eq ?_) this
  rw [e1]
  field_simp
  ring

theorem fls_upper {alpha t : ℝ} (ha : 0 < alpha) (ht : 0 < t) (hd : 0 < d) (hH : 0 < H) :
    fls t alpha ⟨d, H, D, H, D⟩ true false ≤ E1 (d ^ 2 / (4 * alpha * t)) / 2 := by
  have hl := lower_pos ha ht
  have e0 : d ^ 2 * lower alpha t ^ 2 = d ^ 2 / (4 * alpha * t) := by rw [lower_sq ha ht]; field_simp
  have hi := gauss_div_integrableOn (k := d ^ 2) (by positivity) hl
  have hm : quad (integrand ⟨d, H, D, H, D⟩ true false) (lower alpha t) none ≤ ∫ s in Ioi (lower alpha t), 2 * H * (exp (-d ^ 2 * s ^ 2) / s) := by
    refine setIntegral_mono_on (integrand_integrableOn ⟨hd, hH.le, hH⟩ true false hl.le) (hi.const_mul _) measurableSet_Ioi fun s hs => ?_
    have h0 : 0 < s := hl.trans hs
    rw [rea_eq h0]
    refine mul_le_mul_of_nonneg_right (sub_le_self _ ?_) (by positivity)
    have := defect_nonneg (show 0 ≤ H * s by positivity)
    positivity
  rw [integral_const_mul, gauss_div_integral (by positivity) hl, e0] at hm
  have := mul_le_mul_of_nonneg_left hm (show 0 ≤ 0.5 / H by positivity)
  refine le_trans this (le_of_eq ?_)
  field_simp
  ring

/-! ### Properties -/

/-- **C131** (infinite line source). -/
theorem near_infinite_line {alpha : ℝ} (ha : 0 < alpha) {b : Bore.Borehole} (hb : Upright b) {t : ℝ} (ht : 0 < t) :
    (1 - 3 * √(alpha * t / π) / b.H) * (E1 (b.rb ^ 2 / (4 * alpha * t)) / 2) ≤ fls t alpha (pairOf b b) true true ∧
      fls t alpha (pairOf b b) true true < E1 (b.rb ^ 2 / (4 * alpha * t)) / 2 ∧
      (1 - 2 * √(alpha * t / π) / b.H) * (E1 (b.rb ^ 2 / (4 * alpha * t)) / 2) ≤ fls t alpha (pairOf b b) true false ∧
      fls t alpha (pairOf b b) true false ≤ E1 (b.rb ^ 2 / (4 * alpha * t)) / 2 := by
  obtain ⟨hr, hH, hD⟩ := hb
  rw [self_pair ⟨hr, hH, hD⟩]
  have hp := sqrt_pi_pos
  have up := fls_upper (D := b.D) ha ht hr hH
  have lt := (positive_increasing ha (g := ⟨b.rb, b.H, b.D, b.H, b.D⟩) ⟨hr, hH.le, hH⟩ hH ht (show t < t + 1 by linarith)).2.2.1
  refine ⟨fls_lower ha ht hr hH true (by norm_num) fun s hs => ?_, lt.trans_le up, fls_lower ha ht hr hH false (by norm_num) fun s hs => ?_, up⟩
  · rw [all_eq hs]
    refine mul_le_mul_of_nonneg_right (sub_le_sub_left (div_le_div_of_nonneg_right ?_ hs.le) _) (by positivity)
    have h1 := defect_le (show 0 ≤ b.H * s by positivity)
    have h2 := defect_le (show 0 ≤ (2 * b.D + b.H) * s by positivity)
    have h3 := defect_nonneg (show 0 ≤ 2 * b.D * s by positivity)
    have h4 := defect_mono (show (2 * b.D + b.H) * s ≤ (2 * b.D + 2 * b.H) * s from mul_le_mul_of_nonneg_right (by linarith) hs.le)
    have e : 3 / √π = 3 * (1 / √π) := by ring
    rw [e]
    linarith
  · rw [rea_eq hs]
    refine mul_le_mul_of_nonneg_right (sub_le_sub_left (div_le_div_of_nonneg_right ?_ hs.le) _) (by positivity)
    have h1 := defect_le (show 0 ≤ b.H * s by positivity)
    have e : 2 / √π = 2 * (1 / √π) := by ring
    rw [e]
    linarith

theorem E1_near_log {x : ℝ} (hx : 0 < x) : -log x - eulerMascheroniConstant ≤ E1 x ∧ E1 x ≤ -log x - eulerMascheroniConstant + x := by
  have hd : ∀ x : ℝ, 0 < x → HasDerivAt (fun x => E1 x + log x) (-(exp (-x) / x) + x⁻¹) x := fun x hx => (E1_hasDerivAt hx).add (hasDerivAt_log hx.ne')
  have hE : ∀ x : ℝ, 0 < x → 0 ≤ -(exp (-x) / x) + x⁻¹ ∧ -(exp (-x) / x) + x⁻¹ ≤ 1 := fun x hx => by
    have e : -(exp (-x) / x) + x⁻¹ = (1 - exp (-x)) / x := by field_simp; ring
    rw [e]
    have h1 : exp (-x) ≤ 1 := exp_le_one_iff.mpr (by linarith)
    have h2 := add_one_le_exp (-x)
    exact ⟨div_nonneg (by linarith) hx.le, (div_le_one hx).mpr (by linarith)⟩
  have up : Tendsto (fun y => E1 y + log y - y) (𝓝[>] 0) (𝓝 (-eulerMascheroniConstant - 0)) :=
    E1_zero.sub (tendsto_id.mono_left nhdsWithin_le_nhds)
  have h1 : -eulerMascheroniConstant ≤ E1 x + log x := by
    refine le_of_tendsto E1_zero ?_
    filter_upwards [Ioo_mem_nhdsGT hx] with y hy
    exact le_of_slope (f := fun x => E1 x + log x) hy.2.le (fun z hz => hd z (hy.1.trans_le hz.1)) fun z hz => (hE z (hy.1.trans hz.1)).1
  have h2 : E1 x + log x - x ≤ -eulerMascheroniConstant - 0 := by
    refine ge_of_tendsto up ?_
    filter_upwards [Ioo_mem_nhdsGT hx] with y hy
    have := le_of_slope (f := fun x => x - (E1 x + log x)) hy.2.le (fun z hz => (hasDerivAt_id z).sub (hd z (hy.1.trans_le hz.1))) fun z hz => by
      have := (hE z (hy.1.trans hz.1)).2
      linarith
    beta_reduce at this
    linarith
  exact ⟨by linarith, by linarith⟩

/-- **C131** (logarithm). -/
theorem near_logarithm {alpha : ℝ} (ha : 0 < alpha) {b : Bore.Borehole} (hb : Upright b) {t : ℝ} (ht : 0 < t) :
    (1 - 3 * √(alpha * t / π) / b.H) * ((log (4 * alpha * t / b.rb ^ 2) - eulerMascheroniConstant) / 2)
        - 3 * √(alpha * t / π) / b.H * (b.rb ^ 2 / (8 * alpha * t)) ≤ fls t alpha (pairOf b b) true true ∧
      fls t alpha (pairOf b b) true true < (log (4 * alpha * t / b.rb ^ 2) - eulerMascheroniConstant) / 2 + b.rb ^ 2 / (8 * alpha * t) := by
  have hr := hb.rb
  have hH := hb.H
  obtain ⟨h1, h2, -, -⟩ := near_infinite_line ha hb ht
  have hx : 0 < b.rb ^ 2 / (4 * alpha * t) := by positivity
  obtain ⟨g1, g2⟩ := E1_near_log hx
  have e : log (4 * alpha * t / b.rb ^ 2) = -log (b.rb ^ 2 / (4 * alpha * t)) := by rw [← log_inv, inv_div]
  have f : b.rb ^ 2 / (8 * alpha * t) = b.rb ^ 2 / (4 * alpha * t) / 2 := by field_simp; norm_num
  rw [e, f]
  have hc : 0 ≤ 3 * √(alpha * t / π) / b.H := by positivity
  obtain ⟨c, hce⟩ : ∃ c, c = 3 * √(alpha * t / π) / b.H := ⟨_, rfl⟩
  rw [← hce] at hc h1 ⊢
  constructor
  · have := mul_le_mul_of_nonneg_left g2 hc
    nlinarith
  · linarith

/-- Example: after 100 hours in ground of `1e-6` m²/s, a borehole of 150 m. -/
example := near_infinite_line (alpha := 1 / 10 ^ 6) (by norm_num) demo_upright (t := 360000) (by norm_num)

example := near_logarithm (alpha := 1 / 10 ^ 6) (by norm_num) demo_upright (t := 360000) (by norm_num)

/-- … where the lower factor is at least 0.98. -/
example : (0.98 : ℝ) ≤ 1 - 3 * √(1 / 10 ^ 6 * 360000 / π) / demo.H := by
  have h : √(1 / 10 ^ 6 * 360000 / π) ≤ 0.6 := by
    rw [sqrt_le_left (by norm_num)]
    rw [div_le_iff₀ pi_pos]
    nlinarith [pi_gt_three]
  norm_num [demo]
  norm_num at h
  linarith

end Verif.FLS
