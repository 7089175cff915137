import Verif.FLS.Exp1Check

/-!
# Bounds of the constants of the formula for the exponential integral

Euler's constant to within `4e-5` (from 64 terms of the harmonic series), and from it `G`, `b` and `h_inf`.
-/

noncomputable section

namespace Verif.FLS.Exp1Check

open Real Filter Topology Verif.FLS Verif.FLS.ErfCheck

/-! ### Euler's constant -/

theorem log_le_sinh {x : ℝ} (hx : 1 ≤ x) : log x ≤ (x - x⁻¹) / 2 := by
  rw [← sinh_log (by linarith)]
  exact self_le_sinh_iff.mpr (log_nonneg hx)

theorem gamma_lo (n : ℕ) : (harmonic (n + 1) : ℝ) - log ((n + 1 : ℕ) : ℝ) - 1 / (2 * ((n + 1 : ℕ) : ℝ)) ≤ eulerMascheroniConstant := by
  have hm : Monotone fun n : ℕ => (harmonic (n + 1) : ℝ) - log ((n + 1 : ℕ) : ℝ) - 1 / (2 * ((n + 1 : ℕ) : ℝ)) := by
    refine monotone_nat_of_le_succ fun n => ?_
    have h1 : (0 : ℝ) < (n : ℝ) + 1 := by positivity
    have h2 : (0 : ℝ) < (n : ℝ) + 2 := by positivity
    have h := log_le_sinh (x := ((n : ℝ) + 2) / (n + 1)) (by rw [le_div_iff₀ h1]; linarith)
    rw [log_div h2.ne' h1.ne', inv_div] at h
    rw [harmonic_succ (n + 1)]
    push_cast
    rw [show (n : ℝ) + 1 + 1 = n + 2 by ring]
    have e : (((n : ℝ) + 2) / (n + 1) - (n + 1) / (n + 2)) / 2 = 1 / (2 * (n + 1)) + 1 / (2 * (n + 2)) := by field_simp; ring
    have e' : ((n : ℝ) + 2)⁻¹ = 1 / (2 * (n + 2)) + 1 / (2 * (n + 2)) := by field_simp; ring
    linarith
  have ht : Tendsto (fun n : ℕ => (harmonic (n + 1) : ℝ) - log ((n + 1 : ℕ) : ℝ) - 1 / (2 * ((n + 1 : ℕ) : ℝ))) atTop (𝓝 eulerMascheroniConstant) := by
    have h1 := tendsto_harmonic_sub_log.comp (tendsto_add_atTop_nat 1)
    have h2 := (tendsto_one_div_add_atTop_nhds_zero_nat (𝕜 := ℝ)).const_mul (1 / 2)
    have h3 := h1.sub h2
    simp only [mul_zero, sub_zero, Function.comp_def] at h3
    refine h3.congr fun n => ?_
    push_cast
    rw [one_div_mul_one_div]
  exact hm.ge_of_tendsto ht n

theorem gamma_hi (n : ℕ) : eulerMascheroniConstant ≤ (harmonic n : ℝ) - log ((n : ℝ) + 1 / 2) := by
  have hm : Antitone fun n : ℕ => (harmonic n : ℝ) - log ((n : ℝ) + 1 / 2) := by
    refine antitone_nat_of_succ_le fun n => ?_
    have h1 : (0 : ℝ) < (n : ℝ) + 1 / 2 := by positivity
    have h := le_log_one_add_of_nonneg (x := 1 / ((n : ℝ) + 1 / 2)) (by positivity)
    rw [show 1 + 1 / ((n : ℝ) + 1 / 2) = ((n : ℝ) + 1 + 1 / 2) / (n + 1 / 2) by field_simp; ring, log_div (by positivity) h1.ne',
      show 2 * (1 / ((n : ℝ) + 1 / 2)) / (1 / ((n : ℝ) + 1 / 2) + 2) = ((n : ℝ) + 1)⁻¹ by field_simp; ring] at h
    rw [harmonic_succ n]
    push_cast
    linarith
  have ht : Tendsto (fun n : ℕ => (harmonic n : ℝ) - log ((n : ℝ) + 1 / 2)) atTop (𝓝 eulerMascheroniConstant) := by
    refine tendsto_of_tendsto_of_tendsto_of_le_of_le' tendsto_harmonic_sub_log_add_one tendsto_harmonic_sub_log (Eventually.of_forall fun n => ?_)
      ((eventually_gt_atTop 0).mono fun n hn => ?_)
    · have : log ((n : ℝ) + 1 / 2) ≤ log ((n : ℝ) + 1) := log_le_log (by positivity) (by linarith)
      linarith
    · have hn' : (0 : ℝ) < n := by exact_mod_cast hn
      have : log (n : ℝ) ≤ log ((n : ℝ) + 1 / 2) := log_le_log hn' (by linarith)
      linarith
  exact hm.le_of_tendsto ht n

theorem harmonic_64 : (4743890 : ℚ) / 1000000 ≤ harmonic 64 ∧ harmonic 64 ≤ (4743891 : ℚ) / 1000000 := by
  simp only [harmonic, Finset.sum_range_succ, Finset.sum_range_zero]
  norm_num

theorem gamma_bounds : (577195 : ℝ) / 1000000 ≤ eulerMascheroniConstant ∧ eulerMascheroniConstant ≤ (577226 : ℝ) / 1000000 := by
  have h1 : (4743890 : ℝ) / 1000000 ≤ (harmonic 64 : ℝ) := by
    have := (Rat.cast_le (K := ℝ)).mpr harmonic_64.1
    push_cast at this
    exact this
  have h2 : (harmonic 64 : ℝ) ≤ (4743891 : ℝ) / 1000000 := by
    have := (Rat.cast_le (K := ℝ)).mpr harmonic_64.2
    push_cast at this
    exact this
  have l1 := log_two_gt_d9
  have l2 := log_two_lt_d9
  have e : log (64 : ℝ) = 6 * log 2 := by rw [show (64 : ℝ) = 2 ^ 6 by norm_num, log_pow]; norm_num
  constructor
  · have h := gamma_lo 63
    norm_num at h
    rw [e] at h
    linarith
  · have h := gamma_hi 64
    have k := le_log_one_add_of_nonneg (x := (1 : ℝ) / 128) (by norm_num)
    have : log ((64 : ℕ) + 1 / 2 : ℝ) = log 64 + log (1 + 1 / 128) := by
      rw [← log_mul (by norm_num) (by norm_num)]; norm_num
    rw [this, e] at h
    norm_num at h k
    linarith

/-! ### The constants of the formula -/

theorem Lo.nat_le {a b : ℕ} {v : ℝ} (h : Lo a v) (hb : b ≤ a) : Lo b v := le_trans (by exact_mod_cast hb) h
theorem Hi.nat_le {a b : ℕ} {v : ℝ} (h : Hi a v) (hb : a ≤ b) : Hi b v := le_trans h (by exact_mod_cast hb)

theorem cG_lo : Lo gLo cG := by
  have h : Hi 665496268418191853 eulerMascheroniConstant := by
    have := gamma_bounds.2
    unfold Hi sc
    norm_num
    linarith
  exact (Lo.xp h).nat_le (by decide +kernel)

theorem cG_hi : Hi gHi cG := by
  have h : Lo 665460527851549040 eulerMascheroniConstant := by
    have := gamma_bounds.1
    unfold Lo sc
    norm_num
    linarith
  exact (Hi.xp h).nat_le (by decide +kernel)

theorem cG_bounds : (0.561452 : ℝ) ≤ cG ∧ cG ≤ 0.561473 := by
  have h1 := cG_lo; have h2 := cG_hi
  unfold Lo gLo sc at h1
  unfold Hi gHi sc at h2
  norm_num at h1 h2 ⊢
  constructor <;> linarith

theorem cb_bounds : (1.04205 : ℝ) ≤ cb ∧ cb ≤ 1.0421 := by
  obtain ⟨h1, h2⟩ := cG_bounds
  have hd : 0 < cG * (2 - cG) := mul_pos (by linarith) (by linarith)
  constructor
  · unfold cb
    refine le_sqrt_of_sq_le ?_
    rw [le_div_iff₀ hd]
    nlinarith
  · unfold cb
    rw [sqrt_le_left (by norm_num), div_le_iff₀ hd]
    nlinarith

theorem wh_bounds : (1.08005 : ℝ) ≤ wh ∧ wh ≤ 1.0802 := by
  obtain ⟨h1, h2⟩ := cG_bounds
  obtain ⟨b1, b2⟩ := cb_bounds
  have h0 : 0 < cG := by linarith
  have h3 : 0 < 2 - cG := by linarith
  have hb := cb_pos
  have hd : 0 < 3 * cG * (2 - cG) ^ 2 * cb := by positivity
  have hp : 0 < 3 * cG * (2 - cG) ^ 2 := by positivity
  unfold wh
  rw [le_div_iff₀ hd, div_le_iff₀ hd]
  have k1 := mul_le_mul_of_nonneg_left b2 hp.le
  have k2 := mul_le_mul_of_nonneg_left b1 hp.le
  obtain ⟨d, hG⟩ : ∃ d, cG = 0.561452 + d := ⟨cG - 0.561452, by ring⟩
  have d1 : 0 ≤ d := by linarith
  have d2 : d ≤ 0.000021 := by linarith
  constructor
  · refine (mul_le_mul_of_nonneg_left k1 (by norm_num)).trans ?_
    rw [hG]
    nlinarith [mul_nonneg d1 d1, mul_nonneg (mul_nonneg d1 d1) d1]
  · refine le_trans ?_ (mul_le_mul_of_nonneg_left k2 (by norm_num))
    rw [hG]
    nlinarith [mul_nonneg d1 d1, mul_nonneg (mul_nonneg d1 d1) d1]

theorem p_bounds : (1.0919284281 : ℝ) ≤ √(31 / 26) ∧ √(31 / 26) ≤ 1.0919284283 := by
  constructor
  · exact le_sqrt_of_sq_le (by norm_num)
  · rw [sqrt_le_left (by norm_num)]; norm_num

theorem rpow_eq : (20 : ℝ) / 47 * 1024 ^ √(31 / 26) = 20 / 47 / exp (-(10 * √(31 / 26) * log 2)) := by
  rw [show (1024 : ℝ) = 2 ^ (10 : ℝ) by norm_num, ← rpow_mul (by norm_num), rpow_def_of_pos (by norm_num), exp_neg, div_inv_eq_mul]
  ring_nf

theorem consts : Consts := by
  obtain ⟨p1, p2⟩ := p_bounds
  obtain ⟨b1, b2⟩ := cb_bounds
  obtain ⟨w1, w2⟩ := wh_bounds
  have l1 := log_two_gt_d9
  have l2 := log_two_lt_d9
  have hs := sc_pos
  refine ⟨cG_lo, cG_hi, ?_, ?_, ?_, ?_, ?_, ?_, ?_, ?_⟩
  · unfold Lo bLo sc; norm_num at b1 ⊢; linarith
  · unfold Hi bHi sc; norm_num at b2 ⊢; linarith
  · unfold Lo hLo sc; norm_num at w1 ⊢; linarith
  · unfold Hi hHi sc; norm_num at w2 ⊢; linarith
  · unfold Lo pLo sc; push_cast; linarith
  · unfold Hi pHi sc; push_cast; linarith
  · have h : Lo 8726083684326013562 (10 * √(31 / 26) * log 2) := by
      have : 10 * (1.0919284281 : ℝ) * 0.6931471803 ≤ 10 * √(31 / 26) * log 2 := mul_le_mul (by linarith) l1.le (by norm_num) (by positivity)
      unfold Lo sc
      push_cast
      linarith
    have k := (Hi.xp h).le
    have kp := exp_pos (-(10 * √(31 / 26) * log 2))
    rw [rpow_eq]
    unfold Lo
    rw [← mul_div_assoc, le_div_iff₀ kp]
    refine (mul_le_mul_of_nonneg_left k (Nat.cast_nonneg _)).trans ?_
    rw [← mul_div_assoc, div_le_iff₀ hs]
    have : 47 * (cLo * xpH 8726083684326013562) ≤ 20 * (sc * sc) := by decide +kernel
    have := (Nat.cast_le (α := ℝ)).mpr this
    push_cast at this
    linarith
  · have h : Hi 8726083692218840975 (10 * √(31 / 26) * log 2) := by
      have : 10 * √(31 / 26) * log 2 ≤ 10 * (1.0919284283 : ℝ) * 0.6931471808 := mul_le_mul (by linarith) l2.le (by linarith) (by norm_num)
      unfold Hi sc
      push_cast
      linarith
    have k := (Lo.xp h).le
    have kp := exp_pos (-(10 * √(31 / 26) * log 2))
    rw [rpow_eq]
    unfold Hi
    rw [← mul_div_assoc, div_le_iff₀ kp]
    refine le_trans ?_ (mul_le_mul_of_nonneg_left k (Nat.cast_nonneg _))
    rw [← mul_div_assoc (cHi : ℝ), le_div_iff₀ hs]
    have : 20 * (sc * sc) ≤ 47 * (cHi * xpL 8726083692218840975) := by decide +kernel
    have := (Nat.cast_le (α := ℝ)).mpr this
    push_cast at this
    linarith

end Verif.FLS.Exp1Check
