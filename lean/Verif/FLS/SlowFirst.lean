import Verif.FLS.Exp1RelLemmas

/-!
# Lemmas: an inequality for the exponential integral (first time steps of a line source, C130)
-/

noncomputable section

namespace Verif.FLS

open Real MeasureTheory Set Filter Topology Exp1Check

/-! ### Taylor polynomials of `exp (-x)` -/

theorem nonneg_from_zero {f f' : ℝ → ℝ} (hd : ∀ x, HasDerivAt f (f' x) x) (h0 : f 0 = 0) (hn : ∀ x, 0 ≤ x → 0 ≤ f' x) {x : ℝ} (hx : 0 ≤ x) : 0 ≤ f x := by
  have h : MonotoneOn f (Ici 0) := by
    refine monotoneOn_of_deriv_nonneg (convex_Ici 0) (fun x _ => (hd x).continuousAt.continuousWithinAt) (fun x _ => (hd x).differentiableAt.differentiableWithinAt) fun x hx => ?_
    rw [interior_Ici] at hx
    rw [(hd x).deriv]
    exact hn x (le_of_lt hx)
  have := h (mem_Ici.mpr le_rfl) hx hx
  rwa [h0] at this

theorem exp_neg_hasDerivAt (x : ℝ) : HasDerivAt (fun x : ℝ => exp (-x)) (-exp (-x)) x := by
  have := (hasDerivAt_neg x).exp
  rwa [mul_neg_one] at this

theorem exp_neg_le2 {x : ℝ} (hx : 0 ≤ x) : exp (-x) ≤ 1 - x + x ^ 2 / 2 := by
  have hd : ∀ x : ℝ, HasDerivAt (fun x : ℝ => (1 - x + x ^ 2 / 2) - exp (-x)) ((-1 + 2 * x / 2) - -exp (-x)) x := fun x =>
    ((((hasDerivAt_id x).const_sub 1).add ((hasDerivAt_pow 2 x).div_const 2)).sub (exp_neg_hasDerivAt x)).congr_deriv (by simp)
  have := nonneg_from_zero hd (by simp) (fun x _ => by have := add_one_le_exp (-x); linarith) hx
  linarith

theorem exp_neg_ge3 {x : ℝ} (hx : 0 ≤ x) : 1 - x + x ^ 2 / 2 - x ^ 3 / 6 ≤ exp (-x) := by
  have hd : ∀ x : ℝ, HasDerivAt (fun x : ℝ => exp (-x) - (1 - x + x ^ 2 / 2 - x ^ 3 / 6)) (-exp (-x) - (-1 + 2 * x / 2 - 3 * x ^ 2 / 6)) x := fun x =>
    ((exp_neg_hasDerivAt x).sub ((((hasDerivAt_id x).const_sub 1).add ((hasDerivAt_pow 2 x).div_const 2)).sub ((hasDerivAt_pow 3 x).div_const 6))).congr_deriv (by simp)
  have := nonneg_from_zero hd (by simp) (fun x hx => by have := exp_neg_le2 hx; linarith) hx
  linarith

theorem exp_neg_le4 {x : ℝ} (hx : 0 ≤ x) : exp (-x) ≤ 1 - x + x ^ 2 / 2 - x ^ 3 / 6 + x ^ 4 / 24 := by
  have hd : ∀ x : ℝ, HasDerivAt (fun x : ℝ => (1 - x + x ^ 2 / 2 - x ^ 3 / 6 + x ^ 4 / 24) - exp (-x)) ((-1 + 2 * x / 2 - 3 * x ^ 2 / 6 + 4 * x ^ 3 / 24) - -exp (-x)) x := fun x =>
    ((((((hasDerivAt_id x).const_sub 1).add ((hasDerivAt_pow 2 x).div_const 2)).sub ((hasDerivAt_pow 3 x).div_const 6)).add ((hasDerivAt_pow 4 x).div_const 24)).sub (exp_neg_hasDerivAt x)).congr_deriv (by simp)
  have := nonneg_from_zero hd (by simp) (fun x hx => by have := exp_neg_ge3 hx; linarith) hx
  linarith

/-! ### Second difference of the first three increments of `E1 (a / t)` -/

/-- A polynomial below the entire part. -/
def low (a : ℝ) : ℝ := 11 / 6 * a - 85 / 144 * a ^ 2 + 7 / 48 * a ^ 3 - 1 / 32 * a ^ 4

theorem low_hasDerivAt (a : ℝ) : HasDerivAt low (11 / 6 - 85 / 72 * a + 7 / 16 * a ^ 2 - 1 / 8 * a ^ 3) a := by
  have h := ((((hasDerivAt_id a).const_mul (11 / 6)).sub ((hasDerivAt_pow 2 a).const_mul (85 / 144))).add ((hasDerivAt_pow 3 a).const_mul (7 / 48))).sub ((hasDerivAt_pow 4 a).const_mul (1 / 32))
  refine h.congr_deriv ?_
  norm_num
  ring

/-- Third difference of `E1 (a / m)`, `m = 0, 1, 2, 3`. -/
def third (a : ℝ) : ℝ := 3 * E1 a - 3 * E1 (a / 2) + E1 (a / 3)

theorem third_hasDerivAt {a : ℝ} (ha : 0 < a) : HasDerivAt third (-(3 * exp (-a) - 3 * exp (-(a / 2)) + exp (-(a / 3))) / a) a := by
  have h2 := HasDerivAt.comp a (E1_hasDerivAt (show 0 < a / 2 by linarith)) ((hasDerivAt_id a).div_const 2)
  have h3 := HasDerivAt.comp a (E1_hasDerivAt (show 0 < a / 3 by linarith)) ((hasDerivAt_id a).div_const 3)
  refine (((E1_hasDerivAt ha).const_mul 3).sub (h2.const_mul 3)).add h3 |>.congr_deriv ?_
  simp only [id]
  field_simp
  ring

theorem third_ge {a : ℝ} (ha : 0 < a) : low a - log a - eulerMascheroniConstant - 3 * log 2 + log 3 ≤ third a := by
  have hd : ∀ x : ℝ, 0 < x → HasDerivAt (fun x => third x + log x - low x)
      (-(3 * exp (-x) - 3 * exp (-(x / 2)) + exp (-(x / 3))) / x + x⁻¹ - (11 / 6 - 85 / 72 * x + 7 / 16 * x ^ 2 - 1 / 8 * x ^ 3)) x := fun x hx =>
    ((third_hasDerivAt hx).add (hasDerivAt_log hx.ne')).sub (low_hasDerivAt x)
  have hm : MonotoneOn (fun x => third x + log x - low x) (Ioi 0) := by
    refine monotoneOn_of_deriv_nonneg (convex_Ioi 0) (fun x hx => (hd x hx).continuousAt.continuousWithinAt) (fun x hx => ?_) fun x hx => ?_
    · rw [interior_Ioi] at hx
      exact (hd x hx).differentiableAt.differentiableWithinAt
    · rw [interior_Ioi] at hx
      have hx' : 0 < x := hx
      rw [(hd x hx).deriv]
      have h1 := exp_neg_le4 hx'.le
      have h2 := exp_neg_ge3 (show 0 ≤ x / 2 by positivity)
      have h3 := exp_neg_le2 (show 0 ≤ x / 3 by positivity)
      have e : -(3 * exp (-x) - 3 * exp (-(x / 2)) + exp (-(x / 3))) / x + x⁻¹ - (11 / 6 - 85 / 72 * x + 7 / 16 * x ^ 2 - 1 / 8 * x ^ 3)
          = (1 - (3 * exp (-x) - 3 * exp (-(x / 2)) + exp (-(x / 3))) - x * (11 / 6 - 85 / 72 * x + 7 / 16 * x ^ 2 - 1 / 8 * x ^ 3)) / x := by
        field_simp
        ring
      rw [e]
      refine div_nonneg ?_ hx'.le
      nlinarith
  have hl : Tendsto (fun x => third x + log x - low x) (𝓝[>] 0) (𝓝 (-eulerMascheroniConstant - 3 * log 2 + log 3)) := by
    have t1 := E1_zero
    have tk : ∀ k : ℝ, 0 < k → Tendsto (fun x => E1 (x / k) + log (x / k)) (𝓝[>] 0) (𝓝 (-eulerMascheroniConstant)) := by
      intro k hk
      refine E1_zero.comp ?_
      refine tendsto_nhdsWithin_iff.mpr ⟨?_, ?_⟩
      · have : Tendsto (fun x : ℝ => x / k) (𝓝 0) (𝓝 (0 / k)) := (continuous_id.div_const k).tendsto 0
        rw [zero_div] at this
        exact this.mono_left nhdsWithin_le_nhds
      · filter_upwards [self_mem_nhdsWithin] with x hx
        exact div_pos hx hk
    have tl : Tendsto low (𝓝[>] 0) (𝓝 0) := by
      have := (low_hasDerivAt 0).continuousAt.tendsto
      rw [show low 0 = 0 by simp [low]] at this
      exact this.mono_left nhdsWithin_le_nhds
    have := ((((t1.const_mul 3).sub ((tk 2 (by norm_num)).const_mul 3)).add (tk 3 (by norm_num))).sub tl).add_const (-(3 * log 2) + log 3)
    have e : 3 * -eulerMascheroniConstant - 3 * -eulerMascheroniConstant + -eulerMascheroniConstant - 0 + (-(3 * log 2) + log 3)
        = -eulerMascheroniConstant - 3 * log 2 + log 3 := by ring
    rw [e] at this
    refine this.congr' ?_
    filter_upwards [self_mem_nhdsWithin] with x hx
    have hx' : (0 : ℝ) < x := hx
    rw [log_div hx'.ne' (by norm_num), log_div hx'.ne' (by norm_num)]
    unfold third
    ring
  have := le_of_tendsto (b := third a + log a - low a) hl ?_
  · linarith
  · filter_upwards [Ioo_mem_nhdsGT ha] with x hx
    exact hm hx.1 ha hx.2.le

/-- The third difference is positive for `a ≤ 2/5`. -/
theorem third_pos {a : ℝ} (ha : 0 < a) (ha' : a ≤ 2 / 5) : 0 < third a := by
  have h := third_ge ha
  have hg := gamma_bounds.2
  have h1 : log a ≤ log 2 - log 5 + (5 / 2 * a - 1) := by
    have := log_le_sub_one_of_pos (show 0 < 5 / 2 * a by positivity)
    rw [log_mul (by norm_num) ha.ne', log_div (by norm_num) (by norm_num)] at this
    linarith
  have h2 : -(1 / 15 : ℝ) ≤ log 5 + log 3 - 4 * log 2 := by
    have := log_le_sub_one_of_pos (show (0 : ℝ) < 16 / 15 by norm_num)
    rw [log_div (by norm_num) (by norm_num), show (16 : ℝ) = 2 ^ 4 by norm_num, log_pow, show (15 : ℝ) = 5 * 3 by norm_num, log_mul (by norm_num) (by norm_num)] at this
    push_cast at this
    norm_num at this ⊢
    linarith
  have h3 : 0.6471 + 5 / 2 * (a - 2 / 5) ≤ low a := by
    unfold low
    have : 0 ≤ 2 / 5 - a := by linarith
    nlinarith [mul_nonneg ha.le this, mul_nonneg (mul_nonneg ha.le ha.le) this, mul_nonneg (mul_nonneg (mul_nonneg ha.le ha.le) ha.le) this]
  norm_num at h3
  linarith

/-- Second difference of the increments of the primitive of `exp (-a / t)`. -/
theorem first_exp {a : ℝ} (ha : 0 < a) (ha' : a ≤ 2 / 5) : exp (-a) + exp (-(a / 3)) ≤ 2 * exp (-(a / 2)) := by
  have h1 := exp_neg_le4 ha.le
  have h2 := exp_neg_ge3 (show 0 ≤ a / 2 by positivity)
  have h3 := exp_neg_le2 (show 0 ≤ a / 3 by positivity)
  nlinarith [mul_pos ha ha, mul_pos (mul_pos ha ha) ha, mul_nonneg ha.le (sub_nonneg.mpr ha'), mul_nonneg (mul_pos ha ha).le (sub_nonneg.mpr ha'),
    mul_nonneg (mul_pos (mul_pos ha ha) ha).le (sub_nonneg.mpr ha')]

end Verif.FLS
