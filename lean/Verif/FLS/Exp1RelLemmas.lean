import Verif.FLS.Exp1Table
import Verif.FLS.Exp1Consts

/-!
# The derivative of the formula for the exponential integral and its ends
-/

noncomputable section

namespace Verif.FLS.Exp1Check

open Real Filter Topology Set Verif.FLS Verif.FLS.ErfCheck

/-! ### The derivative -/

theorem s_hasDerivAt {x : ℝ} (hx : 0 < x) : HasDerivAt (fun x : ℝ => x * √x) (3 / 2 * (x * √x) / x) x := by
  refine ((hasDerivAt_id x).mul (hasDerivAt_sqrt hx.ne')).congr_deriv ?_
  have h : √x * √x = x := mul_self_sqrt hx.le
  have h0 : 0 < √x := sqrt_pos.mpr hx
  simp only [id]
  field_simp
  nlinarith

theorem q_hasDerivAt {x : ℝ} (hx : 0 < x) : HasDerivAt wq (√(31 / 26) * wq x / x) x := by
  refine ((hasDerivAt_rpow_const (p := √(31 / 26)) (Or.inl hx.ne')).const_mul (20 / 47)).congr_deriv ?_
  rw [rpow_sub_one hx.ne']
  unfold wq
  ring

theorem y_hasDerivAt {x : ℝ} (hx : 0 < x) : HasDerivAt (fun x => ch x + cb * x) (wK x / x) x := by
  have hs : 0 < x * √x := by positivity
  have hq := wq_pos hx
  have h1 := ((s_hasDerivAt hx).const_add 1).inv (by positivity : 1 + x * √x ≠ 0)
  have h2 := ((q_hasDerivAt hx).const_mul wh).div ((q_hasDerivAt hx).const_add 1) (by positivity : 1 + wq x ≠ 0)
  have h := (h1.add h2).add ((hasDerivAt_id x).const_mul cb)
  refine (h.congr_deriv ?_).congr_of_eventuallyEq ?_
  · unfold wK
    have : 1 + x * √x ≠ 0 := by positivity
    field_simp
    ring
  · refine Eventually.of_forall fun z => ?_
    simp only [ch_wq, Pi.add_apply, Pi.div_apply, Pi.inv_apply, id, one_div]

theorem u_hasDerivAt {x : ℝ} (hx : 0 < x) :
    HasDerivAt cu (-(cG / x ^ 2) + 2 * (1 - cG) * (wK x / x) / (ch x + cb * x) ^ 3) x := by
  have hy : 0 < ch x + cb * x := add_pos (ch_pos hx) (mul_pos cb_pos hx)
  have h1 := (hasDerivAt_inv hx.ne').const_mul cG
  have h2 := (((y_hasDerivAt hx).pow 2).inv (pow_pos hy 2).ne').const_mul (1 - cG)
  refine ((h1.sub h2).congr_deriv ?_).congr_of_eventuallyEq ?_
  · simp only [Pi.pow_apply]
    generalize ch x + cb * x = y at hy
    field_simp
    ring
  · refine Eventually.of_forall fun z => ?_
    simp only [cu, Pi.sub_apply, Pi.pow_apply, Pi.inv_apply, div_eq_mul_inv]

theorem wd_eq (x : ℝ) : cG + (1 - cG) * exp (-x / (1 - cG)) = wd x := by
  unfold wd
  rw [neg_div]
  ring

theorem c_hasDerivAt {x : ℝ} (hx : 0 < x) : HasDerivAt cc (-(exp (-x) * (cG * (1 - exp (-(x / (1 - cG))))) / (wd x * wd x))) x := by
  have hg := cG_lt
  have hd := wd_pos hx
  have h1 : HasDerivAt (fun u : ℝ => exp (-u)) (-exp (-x)) x := by simpa using (hasDerivAt_neg x).exp
  have h2 : HasDerivAt (fun u : ℝ => exp (-u / (1 - cG))) (exp (-x / (1 - cG)) * (-1 / (1 - cG))) x := ((hasDerivAt_neg x).div_const (1 - cG)).exp
  have h3 := h1.div ((h2.const_mul (1 - cG)).const_add cG) (by rw [wd_eq]; exact hd.ne')
  rw [wd_eq] at h3
  refine h3.congr_deriv ?_
  have hg' : 1 - cG ≠ 0 := by linarith
  rw [neg_div]
  field_simp
  unfold wd
  ring

/-- The derivative of the formula. -/
theorem exp1_hasDerivAt {x : ℝ} (hx : 0 < x) : HasDerivAt exp1 (-((wA x + wB x) * (exp (-x) / x))) x := by
  have hu := cu_pos hx
  have hd := wd_pos hx
  have hy : 0 < ch x + cb * x := add_pos (ch_pos hx) (mul_pos cb_pos hx)
  have h := (c_hasDerivAt hx).mul (((u_hasDerivAt hx).const_add 1).log (by positivity))
  refine (h.congr_deriv ?_).congr_of_eventuallyEq (Eventually.of_forall fun z => exp1_eq z)
  unfold wA wB
  rw [wxu_eq hx]
  have e : cc x = exp (-x) / wd x := by unfold cc; rw [wd_eq]
  rw [e]
  have h1 : x + x * cu x = x * (1 + cu x) := by ring
  rw [h1]
  have : 1 + cu x ≠ 0 := by positivity
  field_simp
  ring

theorem E1_hasDerivAt {x : ℝ} (hx : 0 < x) : HasDerivAt E1 (-(exp (-x) / x)) x := by
  have hc : ContinuousOn (fun u : ℝ => exp (-u) / u) (Ioi 0) := by
    refine ContinuousOn.div (by fun_prop) continuousOn_id fun u hu => (ne_of_gt hu)
  have hi : IntervalIntegrable (fun u : ℝ => exp (-u) / u) MeasureTheory.volume (x / 2) x := by
    refine (hc.mono ?_).intervalIntegrable
    intro u hu
    rw [uIcc_of_le (by linarith)] at hu
    have := hu.1
    show 0 < u
    linarith
  have h := intervalIntegral.integral_hasDerivAt_right hi
    (hc.stronglyMeasurableAtFilter isOpen_Ioi x hx) (hc.continuousAt (Ioi_mem_nhds hx))
  refine ((h.const_sub (E1 (x / 2)))).congr_of_eventuallyEq ?_
  filter_upwards [Ioi_mem_nhds (show x / 2 < x by linarith)] with z hz
  have hz' : x / 2 < z := hz
  have := intervalIntegral.integral_Ioi_sub_Ioi (f := fun u : ℝ => exp (-u) / u) (E1_integrableOn (show 0 < x / 2 by linarith)) hz'.le
  unfold E1
  linarith

/-! ### Small arguments -/

theorem wd_ge {x : ℝ} (hx : 0 < x) : 1 - x ≤ wd x ∧ cG ≤ wd x ∧ wd x ≤ 1 := by
  have hg := cG_lt
  have h1 : 0 < 1 - cG := by linarith
  have h2 := add_one_le_exp (-(x / (1 - cG)))
  have h3 := eta_lt hx
  have h4 := exp_pos (-(x / (1 - cG)))
  have h5 : (1 - cG) * (x / (1 - cG)) = x := by field_simp
  unfold wd
  refine ⟨by nlinarith, by nlinarith, by nlinarith⟩

theorem wA_eq {x : ℝ} (hx : 0 < x) : wA x = cG * (1 - exp (-(x / (1 - cG)))) * (x * log (1 + cu x)) / (wd x * wd x) := by
  have hu := cu_pos hx
  unfold wA
  rw [wxu_eq hx]
  congr 2
  field_simp

theorem wA_nonneg {x : ℝ} (hx : 0 < x) : 0 ≤ wA x := by
  have hu := cu_pos hx
  have h1 := cG_gt
  have h2 := eta_lt hx
  rw [wA_eq hx]
  exact div_nonneg (mul_nonneg (mul_nonneg (by linarith) (by linarith)) (mul_nonneg hx.le (log_nonneg (by linarith)))) (mul_self_nonneg _)

theorem cu_le {x : ℝ} : cu x ≤ cG / x := by
  have h1 := cG_lt
  unfold cu
  have : 0 ≤ (1 - cG) / (ch x + cb * x) ^ 2 := div_nonneg (by linarith) (sq_nonneg _)
  linarith

theorem frac_le {v : ℝ} (hv : 0 < v) : 0 < v / ((1 + v) * (1 + v)) ∧ v / ((1 + v) * (1 + v)) ≤ v ∧ v / ((1 + v) * (1 + v)) ≤ 1 / 4 := by
  refine ⟨by positivity, div_le_self hv.le (by nlinarith), ?_⟩
  rw [div_le_div_iff₀ (by positivity) (by norm_num)]
  nlinarith [sq_nonneg (1 - v)]

theorem wK_bounds {x : ℝ} (hx : 0 < x) :
    cb * x - 3 / 2 * (x * √x / ((1 + x * √x) * (1 + x * √x))) ≤ wK x ∧ wK x ≤ cb * x + 6 / 5 * (wq x / ((1 + wq x) * (1 + wq x))) := by
  obtain ⟨w1, w2⟩ := wh_bounds
  obtain ⟨p1, p2⟩ := p_bounds
  have hs := (frac_le (show 0 < x * √x by positivity)).1
  have hq := (frac_le (wq_pos hx)).1
  unfold wK
  generalize √(31 / 26) = p at *
  have h0 : 0 ≤ wh * p := mul_nonneg (by linarith) (by linarith)
  have h1 : wh * p ≤ 6 / 5 := by
    refine (mul_le_mul w2 p2 (by linarith) (by norm_num)).trans (by norm_num)
  have h2 := mul_nonneg h0 hq.le
  have h3 := mul_le_mul_of_nonneg_right h1 hq.le
  constructor <;> linarith

theorem small_A {x : ℝ} (hx : 0 < x) (h : x ≤ 1 / 1024) : wA x ≤ 1 / 10000 := by
  obtain ⟨g1, g2⟩ := cG_bounds
  obtain ⟨d1, -, d3⟩ := wd_ge hx
  norm_num at g1 g2
  have hd := wd_pos hx
  have hu := cu_pos hx
  have hlog : x * log (1 + cu x) ≤ 1 / 16 := by
    have e1 : log (1 + cu x) ≤ 2 * √(1 + cu x) := by
      have h0 : 0 < √(1 + cu x) := sqrt_pos.mpr (by linarith)
      have h2 := log_le_sub_one_of_pos h0
      rw [log_sqrt (by linarith)] at h2
      linarith
    have e2 : x * √(1 + cu x) ≤ 1 / 32 := by
      have : x * √(1 + cu x) = √(x ^ 2 * (1 + cu x)) := by rw [sqrt_mul (sq_nonneg x), sqrt_sq hx.le]
      rw [this, sqrt_le_left (by norm_num)]
      have h3 : x * cu x ≤ cG := by have := mul_le_mul_of_nonneg_left (cu_le (x := x)) hx.le; rwa [mul_div_cancel₀ _ hx.ne'] at this
      nlinarith
    nlinarith
  have hlog0 : 0 ≤ log (1 + cu x) := log_nonneg (by linarith)
  rw [wA_eq hx, div_le_iff₀ (by positivity)]
  have e1 : 1 - exp (-(x / (1 - cG))) ≤ x * 2.3 := by
    have h2 := add_one_le_exp (-(x / (1 - cG)))
    have h3 : x / (1 - cG) ≤ x * 2.3 := by
      rw [div_le_iff₀ (by linarith)]
      nlinarith
    linarith
  have e0 : 0 ≤ 1 - exp (-(x / (1 - cG))) := by linarith [eta_lt hx]
  have e2 : cG * (1 - exp (-(x / (1 - cG)))) ≤ 0.5615 * (0.0009766 * 2.3) := mul_le_mul (by norm_num; linarith) (by norm_num at e1 ⊢; linarith) e0 (by norm_num)
  have e3 : cG * (1 - exp (-(x / (1 - cG)))) * (x * log (1 + cu x)) ≤ 0.5615 * (0.0009766 * 2.3) * (1 / 16) :=
    mul_le_mul e2 hlog (by positivity) (by norm_num)
  have e4 : (0.999 : ℝ) * 0.999 ≤ wd x * wd x := mul_le_mul (by norm_num; linarith) (by norm_num; linarith) (by norm_num) hd.le
  norm_num at e3 e4
  linarith

/-- Arithmetic of the second part. -/
theorem ratio_lo {x g n v : ℝ} (hx : 0 < x) (h : x ≤ 1 / 1024) (hg : 561 / 1000 ≤ g) (hn : g - 2 * (x * x) ≤ n) (hv : v ≤ x + g) :
    (1 - 1 / 500) * v ≤ n := by
  have h1 : x * x ≤ 1 / 1024 * x := by nlinarith
  linarith

theorem ratio_hi {x g n v : ℝ} (h : x ≤ 1 / 1024) (hg : 561 / 1000 ≤ g) (hn : n ≤ g) (hv : g * (1 - x) ≤ v) :
    n ≤ (1 + 1 / 1000) * v := by
  have h1 : g * (1023 / 1024) ≤ g * (1 - x) := mul_le_mul_of_nonneg_left (by linarith) (by linarith)
  linarith

theorem small_B {x : ℝ} (hx : 0 < x) (h : x ≤ 1 / 1024) : 1 - 1 / 500 ≤ wB x ∧ wB x ≤ 1 + 1 / 1000 := by
  obtain ⟨g1, g2⟩ := cG_bounds
  obtain ⟨b1, b2⟩ := cb_bounds
  obtain ⟨d1, -, d3⟩ := wd_ge hx
  norm_num at g1 g2 b1 b2
  have hd := wd_pos hx
  have hs0 : 0 < x * √x := by positivity
  have hsx : √x ≤ 1 / 32 := by rw [sqrt_le_left (by norm_num)]; linarith
  have hs : x * √x ≤ x / 32 := by nlinarith
  have hq0 := wq_pos hx
  have hq : wq x ≤ x / 2 := by
    unfold wq
    have : x ^ √(31 / 26) ≤ x ^ (1 : ℝ) := rpow_le_rpow_of_exponent_ge hx (by linarith) (le_trans (by norm_num) p_bounds.1)
    rw [rpow_one] at this
    linarith
  have hy : 0.999 ≤ ch x + cb * x := by
    have h1 := ch_ge hx
    have h2 : (0.999 : ℝ) ≤ 1 / (1 + x * √x) := by
      rw [le_div_iff₀ (by positivity)]
      linarith
    have h3 : 0 < cb * x := by positivity
    linarith
  obtain ⟨hs1, hs2, -⟩ := frac_le hs0
  obtain ⟨hq1, hq2, -⟩ := frac_le hq0
  obtain ⟨hK1, hK2⟩ := wK_bounds hx
  have hK0 : 0 ≤ wK x := by nlinarith
  have hK3 : wK x ≤ 2 * x := by nlinarith
  have hxu : wxu x = cG - (1 - cG) * x / ((ch x + cb * x) * (ch x + cb * x)) := rfl
  have hB : wB x = (cG - 2 * ((1 - cG) * x * wK x) / ((ch x + cb * x) * (ch x + cb * x) * (ch x + cb * x))) / ((x + wxu x) * wd x) := rfl
  generalize ch x + cb * x = y at *
  norm_num at hy
  have hy2 : (49 : ℝ) / 50 ≤ y * y := by nlinarith
  have hy3 : (48 : ℝ) / 50 ≤ y * y * y := by nlinarith
  have v1 : (1 - cG) * x / (y * y) ≤ x := by
    rw [div_le_iff₀ (by linarith)]
    nlinarith
  have v0 : 0 ≤ (1 - cG) * x / (y * y) := div_nonneg (mul_nonneg (by linarith) hx.le) (by linarith)
  have n0 : 0 ≤ 2 * ((1 - cG) * x * wK x) / (y * y * y) := div_nonneg (mul_nonneg (by norm_num) (mul_nonneg (mul_nonneg (by linarith) hx.le) hK0)) (by linarith)
  have n1 : 2 * ((1 - cG) * x * wK x) / (y * y * y) ≤ 2 * (x * x) := by
    rw [div_le_iff₀ (by linarith)]
    have h1 : (1 - cG) * x * wK x ≤ 0.44 * x * (2 * x) := mul_le_mul (mul_le_mul_of_nonneg_right (by norm_num; linarith) hx.le) hK3 hK0 (by positivity)
    have h2 := mul_le_mul_of_nonneg_left hy3 (by positivity : 0 ≤ 2 * (x * x))
    norm_num at h1
    nlinarith
  have hvd1 : cG * (1 - x) ≤ (x + wxu x) * wd x := mul_le_mul (by rw [hxu]; linarith) d1 (by linarith) (by rw [hxu]; linarith)
  have hvd2 : (x + wxu x) * wd x ≤ (x + cG) * 1 := mul_le_mul (by rw [hxu]; linarith) d3 hd.le (by linarith)
  have hvd0 : 0 < (x + wxu x) * wd x := lt_of_lt_of_le (by nlinarith) hvd1
  rw [hB]
  refine ⟨?_, ?_⟩
  · rw [le_div_iff₀ hvd0]
    exact ratio_lo (g := cG) hx h (by linarith) (by linarith) (by linarith)
  · rw [div_le_iff₀ hvd0]
    exact ratio_hi h (by linarith) (by linarith) hvd1

theorem small_bound {x : ℝ} (hx : 0 < x) (h : x ≤ 1 / 1024) : |wA x + wB x - 1| ≤ 1 / 400 := by
  have h1 := wA_nonneg hx
  have h2 := small_A hx h
  have h3 := small_B hx h
  rw [abs_le]
  constructor <;> linarith

/-! ### Large arguments -/

/-- Arithmetic of the first part. -/
theorem ratio_A {g : ℝ} (h1 : 561 / 1000 ≤ g) :
    (1 - 1 / 500) * ((g + 1 / 1000000) * (g + 1 / 1000000)) ≤ g * (1 - 1 / 1000000) * ((g - 1 / 2000) * (1 - 1 / 1500)) := by
  nlinarith

theorem large_A {x : ℝ} (h : 1024 ≤ x) : 1 - 1 / 500 ≤ wA x ∧ wA x ≤ 1 := by
  have hx : 0 < x := by linarith
  obtain ⟨g1, g2⟩ := cG_bounds
  obtain ⟨b1, -⟩ := cb_bounds
  obtain ⟨-, d2, d3⟩ := wd_ge hx
  norm_num at g1 g2 b1
  have hd := wd_pos hx
  have hu := cu_pos hx
  have hη0 := exp_pos (-(x / (1 - cG)))
  have hη : exp (-(x / (1 - cG))) ≤ 1 / 1000000 := by
    have h1 : 2048 ≤ x / (1 - cG) := by rw [le_div_iff₀ (by linarith)]; nlinarith
    have h2 := add_one_le_exp (x / (1 - cG) / 2)
    have h3 : exp (x / (1 - cG)) = exp (x / (1 - cG) / 2) * exp (x / (1 - cG) / 2) := by rw [← exp_add]; ring_nf
    have h4 : (1000000 : ℝ) ≤ exp (x / (1 - cG)) := by rw [h3]; nlinarith
    rw [exp_neg, ← one_div]
    exact one_div_le_one_div_of_le (by norm_num) h4
  have hdu : wd x ≤ cG + 1 / 1000000 := by unfold wd; nlinarith
  have hy : x ≤ ch x + cb * x := by have := ch_pos hx; nlinarith
  have hxu : wxu x = cG - (1 - cG) * x / ((ch x + cb * x) * (ch x + cb * x)) := rfl
  have hxu0 := wxu_pos hx
  have hul := cu_le (x := x)
  generalize ch x + cb * x = y at *
  have hy0 : 0 < y := by linarith
  have hy2 : x * x ≤ y * y := by nlinarith
  have v1 : (1 - cG) * x / (y * y) ≤ 1 / 2000 := by
    rw [div_le_iff₀ (by positivity)]
    nlinarith
  have v0 : 0 ≤ (1 - cG) * x / (y * y) := div_nonneg (mul_nonneg (by linarith) hx.le) (by positivity)
  have hl1 : log (1 + cu x) / cu x ≤ 1 := by
    rw [div_le_one hu]
    linarith [log_le_sub_one_of_pos (show 0 < 1 + cu x by linarith)]
  have hu2 : cu x ≤ 1 / 1500 := by
    refine hul.trans ?_
    rw [div_le_iff₀ hx]
    nlinarith
  have hl2 : 1 - 1 / 1500 ≤ log (1 + cu x) / cu x := by
    rw [le_div_iff₀ hu]
    have h2 := one_sub_inv_le_log_of_pos (show 0 < 1 + cu x by linarith)
    refine le_trans ?_ h2
    rw [le_sub_iff_add_le, ← le_sub_iff_add_le', inv_le_iff_one_le_mul₀ (by linarith)]
    nlinarith
  have hxu1 : wxu x ≤ cG := by rw [hxu]; linarith
  have hxu2 : cG - 1 / 2000 ≤ wxu x := by rw [hxu]; linarith
  have hA : wA x = cG * (1 - exp (-(x / (1 - cG)))) * (wxu x * (log (1 + cu x) / cu x)) / (wd x * wd x) := rfl
  have A1 : wA x ≤ 1 := by
    rw [hA, div_le_one (by positivity)]
    have h1 : wxu x * (log (1 + cu x) / cu x) ≤ cG * 1 := mul_le_mul hxu1 hl1 (by linarith) (by linarith)
    have h0 : 0 ≤ wxu x * (log (1 + cu x) / cu x) := mul_nonneg hxu0.le (by linarith)
    have h2 : cG * (1 - exp (-(x / (1 - cG)))) * (wxu x * (log (1 + cu x) / cu x)) ≤ cG * 1 * (cG * 1) :=
      mul_le_mul (mul_le_mul_of_nonneg_left (by linarith) (by linarith)) h1 h0 (by linarith)
    have h3 : cG * cG ≤ wd x * wd x := mul_le_mul d2 d2 (by linarith) hd.le
    linarith
  have A0 : 1 - 1 / 500 ≤ wA x := by
    rw [hA, le_div_iff₀ (by positivity)]
    have h1 : (cG - 1 / 2000) * (1 - 1 / 1500) ≤ wxu x * (log (1 + cu x) / cu x) := mul_le_mul hxu2 hl2 (by norm_num) hxu0.le
    have h2 : cG * (1 - 1 / 1000000) * ((cG - 1 / 2000) * (1 - 1 / 1500)) ≤ cG * (1 - exp (-(x / (1 - cG)))) * (wxu x * (log (1 + cu x) / cu x)) :=
      mul_le_mul (mul_le_mul_of_nonneg_left (by linarith) (by linarith)) h1 (mul_nonneg (by linarith) (by norm_num)) (mul_nonneg (by linarith) (by linarith))
    have h3 : wd x * wd x ≤ (cG + 1 / 1000000) * (cG + 1 / 1000000) := mul_le_mul hdu hdu hd.le (by linarith)
    refine (mul_le_mul_of_nonneg_left h3 (by norm_num)).trans (le_trans ?_ h2)
    exact ratio_A (by linarith)
  exact ⟨A0, A1⟩

theorem large_B {x : ℝ} (h : 1024 ≤ x) : 0 ≤ wB x ∧ wB x ≤ 1 / 1024 := by
  have hx : 0 < x := by linarith
  obtain ⟨g1, g2⟩ := cG_bounds
  obtain ⟨b1, b2⟩ := cb_bounds
  obtain ⟨-, d2, d3⟩ := wd_ge hx
  norm_num at g1 g2 b1 b2
  have hd := wd_pos hx
  obtain ⟨hs1, -, hs2⟩ := frac_le (show 0 < x * √x by positivity)
  obtain ⟨hq1, -, hq2⟩ := frac_le (wq_pos hx)
  obtain ⟨hK1, hK2⟩ := wK_bounds hx
  have hK0 : 0 ≤ wK x := by nlinarith
  have hK3 : wK x ≤ 2 * x := by nlinarith
  have hy : x ≤ ch x + cb * x := by have := ch_pos hx; nlinarith
  have hB : wB x = (cG - 2 * ((1 - cG) * x * wK x) / ((ch x + cb * x) * (ch x + cb * x) * (ch x + cb * x))) / ((x + wxu x) * wd x) := rfl
  have hxu0 := wxu_pos hx
  generalize ch x + cb * x = y at *
  have hy0 : 0 < y := by linarith
  have hy2 : x * x ≤ y * y := by nlinarith
  have hy3 : x * x * x ≤ y * y * y := mul_le_mul hy2 hy hx.le (by positivity)
  have n0 : 0 ≤ 2 * ((1 - cG) * x * wK x) / (y * y * y) := div_nonneg (mul_nonneg (by norm_num) (mul_nonneg (mul_nonneg (by linarith) hx.le) hK0)) (by positivity)
  have n1 : 2 * ((1 - cG) * x * wK x) / (y * y * y) ≤ cG := by
    rw [div_le_iff₀ (by positivity)]
    have h1 : (1 - cG) * x * wK x ≤ 1 * x * (2 * x) := mul_le_mul (mul_le_mul_of_nonneg_right (by linarith) hx.le) hK3 hK0 (by positivity)
    have h2 : 1 / 2 * (x * x * x) ≤ cG * (y * y * y) := mul_le_mul (by linarith) hy3 (by positivity) (by linarith)
    nlinarith [mul_pos hx hx]
  have hvd : x * cG ≤ (x + wxu x) * wd x := mul_le_mul (by linarith) d2 (by linarith) (by linarith)
  have hvd0 : 0 < (x + wxu x) * wd x := by positivity
  have B0 : 0 ≤ wB x := by rw [hB]; exact div_nonneg (by linarith) hvd0.le
  have B1 : wB x ≤ 1 / 1024 := by
    rw [hB, div_le_iff₀ hvd0]
    have := mul_le_mul_of_nonneg_right h (show 0 ≤ cG by linarith)
    linarith
  exact ⟨B0, B1⟩

theorem large_bound {x : ℝ} (h : 1024 ≤ x) : |wA x + wB x - 1| ≤ 1 / 400 := by
  have h1 := large_A h
  have h2 := large_B h
  rw [abs_le]
  constructor <;> linarith

/-! ### All arguments -/

theorem w_bound {x : ℝ} (hx : 0 < x) : |wA x + wB x - 1| ≤ 1 / 400 := by
  rcases le_total 1024 x with h | h
  · exact large_bound h
  · obtain ⟨τ, hτ⟩ : ∃ τ, τ = log (1024 / x) := ⟨_, rfl⟩
    have h0 : 0 ≤ τ := by rw [hτ]; exact log_nonneg (by rw [le_div_iff₀ hx]; linarith)
    have e : 1024 * exp (-τ) = x := by
      rw [hτ, ← log_inv, exp_log (by positivity), inv_div]
      field_simp
    rcases check_sound consts check1 h0 with hc | hc
    · rw [e] at hc
      refine hc.trans ?_
      rw [div_le_div_iff₀ sc_pos (by norm_num)]
      unfold sc
      norm_num
    · refine small_bound hx ?_
      rw [div_le_iff₀ sc_pos] at hc
      have l2 := log_two_lt_d9
      have h1 : 20 * log 2 ≤ τ := by
        unfold sc at hc
        norm_num at hc
        linarith
      rw [← e]
      have h2 : exp (-τ) ≤ exp (-(20 * log 2)) := exp_le_exp.mpr (by linarith)
      have h3 : exp (-(20 * log 2)) = 1 / 2 ^ 20 := by
        rw [exp_neg, mul_comm, exp_mul, exp_log (by norm_num), one_div]
        norm_num
      rw [h3] at h2
      norm_num at h2 ⊢
      linarith

end Verif.FLS.Exp1Check
