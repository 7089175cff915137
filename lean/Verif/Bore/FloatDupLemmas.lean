import Verif.Bore.FloatDupModel
import Verif.Bore.FloatDistLemmas
import Verif.Bore.DupLemmas

/-!
# Lemmas about `find_duplicates` with floating-point numbers
-/

namespace Verif.Bore

open Verif.Num

/-! ### Indices -/

theorem fl_int {m : ℤ} (h : |m| ≤ 2 ^ 53) : binary64 (m : ℝ) = m := by
  simpa using binary64_exact m 0 h (by norm_num)

theorem fl_half {m : ℤ} (h : |m| ≤ 2 ^ 53) : binary64 ((m : ℝ) / 2) = m / 2 := by
  have := binary64_exact m (-1) h (by norm_num)
  rwa [zpow_neg_one, ← div_eq_mul_inv] at this

/-- Half of a number of the format, far from underflow. -/
theorem fl_div_two {x : ℝ} (h : IsFloat binary64 x) (h1 : 1 ≤ x) : binary64 (x / 2) = x / 2 := by
  obtain ⟨n, hn, hx⟩ := h.form
  have hlog : 0 ≤ Int.log 2 |x| := by
    rw [abs_of_pos (by linarith)]
    exact (Int.zpow_le_iff_le_log (b := 2) (by norm_num) (by linarith : 0 < x)).mp (by simpa using h1)
  have hl : -52 ≤ lastDigit x := by unfold lastDigit; omega
  have := binary64_exact n (lastDigit x - 1) hn (by omega)
  have e : (n : ℝ) * 2 ^ (lastDigit x - 1) = x / 2 := by
    rw [zpow_sub_one₀ (by norm_num), ← mul_assoc, ← hx]; ring
  rwa [e] at this

theorem isFloat_fl (x : ℝ) : IsFloat binary64 (binary64 x) := binary64_rounding.idem x

theorem fl_nonneg {y : ℝ} (h : 0 ≤ y) : 0 ≤ binary64 y := by
  have hp := pow_last_pos y
  unfold binary64
  refine mul_nonneg ?_ hp.le
  have : (0 : ℤ) ≤ nearestEven (y / 2 ^ lastDigit y) := by
    have hf : (0 : ℤ) ≤ ⌊y / 2 ^ lastDigit y⌋ := Int.floor_nonneg.mpr (by positivity)
    unfold nearestEven
    split_ifs <;> omega
  exact_mod_cast this

/-- Positive numbers are rounded up by a small factor at most. -/
theorem fl_le {x : ℝ} (h : 1 / 2 ≤ x) : binary64 x ≤ x * (1 + 2 ^ (-52 : ℤ)) := by
  have h1 := (abs_le.mp (binary64_rounding.err x)).2
  rw [abs_of_pos (by linarith)] at h1
  have h2 : (2 : ℝ) ^ (-1075 : ℤ) ≤ 2 ^ (-54 : ℤ) := zpow_le_zpow_right₀ (by norm_num) (by norm_num)
  have e1 : (2 : ℝ) ^ (-54 : ℤ) = 2 ^ (-53 : ℤ) * (1 / 2) := by norm_num
  have e2 : (2 : ℝ) ^ (-52 : ℤ) = 2 * 2 ^ (-53 : ℤ) := by norm_num
  have h3 : (0 : ℝ) < 2 ^ (-53 : ℤ) := by positivity
  rw [e1] at h2
  rw [e2]
  generalize (2 : ℝ) ^ (-53 : ℤ) = u at *
  generalize (2 : ℝ) ^ (-1075 : ℤ) = η at *
  have h4 : u * (1 / 2) ≤ u * x := mul_le_mul_of_nonneg_left h h3.le
  linarith

/-- The integer part of `(sqrt(A) - 1) / 2` computed with rounding, for `A` between the squares of consecutive odd numbers. -/
theorem floor_rounded (A m : ℤ) (hm : 0 ≤ m) (hm2 : m ≤ 2 ^ 25) (h1 : (2 * m + 1) ^ 2 ≤ A) (h2 : A + 8 ≤ (2 * m + 3) ^ 2) :
    ⌊binary64 (binary64 (binary64 (Real.sqrt (A : ℝ)) / 2) - 1 / 2)⌋ = m := by
  obtain ⟨s, hs⟩ : ∃ s, s = binary64 (Real.sqrt (A : ℝ)) := ⟨_, rfl⟩
  have hmR : (0 : ℝ) ≤ m := by exact_mod_cast hm
  have hm2R : (m : ℝ) ≤ 2 ^ 25 := by exact_mod_cast hm2
  have hlo : (2 * m + 1 : ℝ) ≤ Real.sqrt A := Real.le_sqrt_of_sq_le (by exact_mod_cast h1)
  have hso : (2 * m + 1 : ℝ) ≤ s := by
    rw [hs]
    refine binary64_ge ?_ (by linarith) hlo
    have := fl_int (m := 2 * m + 1) (by rw [abs_of_pos (by omega)]; omega)
    unfold IsFloat
    push_cast at this
    exact this
  have hdiv : binary64 (s / 2) = s / 2 := fl_div_two (hs ▸ isFloat_fl _) (by linarith)
  rw [← hs, hdiv]
  -- upper bound of the root
  obtain ⟨w, hw⟩ : ∃ w : ℝ, w = 2 * m + 3 := ⟨_, rfl⟩
  have hw3 : 3 ≤ w := by linarith
  have hwb : w ≤ 2 ^ 26 + 3 := by rw [hw]; norm_num at hm2R ⊢; linarith
  have hup : Real.sqrt A ≤ w - 4 / w := by
    have hnn : 0 ≤ w - 4 / w := by
      have : 4 / w ≤ 4 / 3 := by gcongr
      linarith
    refine Real.sqrt_le_iff.mpr ⟨hnn, ?_⟩
    have hA : (A : ℝ) + 8 ≤ w ^ 2 := by rw [hw]; exact_mod_cast h2
    have : (w - 4 / w) ^ 2 = w ^ 2 - 8 + (4 / w) ^ 2 := by field_simp; ring
    rw [this]
    have := sq_nonneg (4 / w)
    linarith
  have hε : (2 : ℝ) ^ (-52 : ℤ) = 1 / 4503599627370496 := by norm_num
  have hsq1 : (1 : ℝ) ≤ Real.sqrt A := by linarith
  have hsup : s ≤ Real.sqrt A * (1 + 2 ^ (-52 : ℤ)) := by rw [hs]; exact fl_le (by linarith)
  rw [hε] at hsup
  -- 4 / w is much larger than the errors
  have hgap : 4 / w > w / 4400000000000000 * 2 := by
    rw [gt_iff_lt, lt_div_iff₀ (by linarith)]
    nlinarith
  have hs2 : s ≤ w - w / 4400000000000000 := by
    have h4 : 0 < 4 / w := by positivity
    have : Real.sqrt A * (1 / 4503599627370496) ≤ w / 4400000000000000 := by
      have : Real.sqrt A ≤ w := by linarith
      linarith
    nlinarith
  obtain ⟨y, hy⟩ : ∃ y, y = s / 2 - 1 / 2 := ⟨_, rfl⟩
  rw [← hy]
  rw [Int.floor_eq_iff]
  constructor
  · rcases eq_or_lt_of_le hm with h0 | h0
    · rw [← h0]
      push_cast
      have hy0 : 0 ≤ y := by rw [hy]; linarith
      exact fl_nonneg hy0
    · refine binary64_ge ?_ (by exact_mod_cast h0) (by rw [hy]; linarith)
      exact fl_int (m := m) (by rw [abs_of_pos h0]; omega)
  · have hym : y ≤ m + 1 - w / 8800000000000000 := by rw [hy]; linarith
    by_cases hh : 1 / 2 ≤ y
    · have := fl_le hh
      rw [hε] at this
      have h5 : y * (1 / 4503599627370496) < w / 8800000000000000 := by
        have : y ≤ w / 2 := by linarith
        linarith
      nlinarith
    · push Not at hh
      have h1 := (abs_le.mp (binary64_rounding.err y)).2
      have hy0 : 0 ≤ y := by rw [hy]; linarith
      rw [abs_of_nonneg hy0] at h1
      have h2 : (2 : ℝ) ^ (-1075 : ℤ) ≤ 2 ^ (-53 : ℤ) := zpow_le_zpow_right₀ (by norm_num) (by norm_num)
      have e1 : (2 : ℝ) ^ (-53 : ℤ) = 1 / 9007199254740992 := by norm_num
      rw [e1] at h1 h2
      linarith

/-- The pair of positions is recovered exactly. -/
theorem recoverFl_cidx (n i j : ℕ) (hn : n ≤ 2 ^ 25) (hij : i < j) (hj : j < n) : recoverFl binary64 n (cidx n i j) = ((i : ℤ), (j : ℤ)) := by
  have hc := cidx_closed n i j hij hj
  obtain ⟨k, hk⟩ : ∃ k, k = cidx n i j := ⟨_, rfl⟩
  rw [← hk] at hc ⊢
  obtain ⟨p, hp⟩ : ∃ p : ℕ, n = i + 2 + p := ⟨n - i - 2, by omega⟩
  obtain ⟨q, hq⟩ : ∃ q : ℕ, j = i + 1 + q := ⟨j - i - 1, by omega⟩
  have hqp : (q : ℤ) ≤ p := by omega
  have hA : -8 * (k : ℤ) + 4 * (n : ℤ) * ((n : ℤ) - 1) - 7 = 4 * ((p : ℤ) + 2) * (p + 1) - 8 * q - 7 := by
    rw [hp, hq] at hc
    rw [hp]
    push_cast at hc ⊢
    linear_combination -4 * hc
  have hI : recoverIFl binary64 n k = i := by
    unfold recoverIFl
    rw [hA]
    have hb : (p : ℤ) ≤ 2 ^ 25 := by omega
    have hp0 : (0 : ℤ) ≤ p := by positivity
    have hq0 : (0 : ℤ) ≤ q := by positivity
    rw [fl_int (by rw [abs_le]; constructor <;> nlinarith), floor_rounded _ p hp0 hb (by nlinarith) (by nlinarith)]
    have e : (n : ℝ) - 2 - ((p : ℤ) : ℝ) = ((i : ℤ) : ℝ) := by rw [hp]; push_cast; ring
    rw [e, fl_int (by rw [abs_of_nonneg (by positivity)]; omega)]
    rfl
  unfold recoverFl
  rw [hI]
  have hJ : recoverJFl binary64 n k (i : ℝ) = ((j : ℤ) : ℝ) := by
    unfold recoverJFl
    have hnb : (n : ℤ) ≤ 2 ^ 25 := by exact_mod_cast hn
    have hi0 : (0 : ℤ) ≤ i := by positivity
    have hin : (i : ℤ) < n := by omega
    have hk0 : (0 : ℤ) ≤ k := by positivity
    have hkb : (k : ℤ) ≤ 2 ^ 50 := by
      have : (j : ℤ) < n := by exact_mod_cast hj
      have : (i : ℤ) < j := by exact_mod_cast hij
      nlinarith
    have e1 : (k : ℝ) + i = ((k + i : ℤ) : ℝ) := by push_cast; ring
    rw [e1, fl_int (by rw [abs_of_nonneg (by omega)]; omega)]
    have e2 : ((k + i : ℤ) : ℝ) + 1 = ((k + i + 1 : ℤ) : ℝ) := by push_cast; ring
    rw [e2, fl_int (by rw [abs_of_nonneg (by omega)]; omega)]
    have e3 : (n : ℝ) * ((n : ℝ) - 1) / 2 = (((n : ℤ) * (n - 1) : ℤ) : ℝ) / 2 := by push_cast; ring
    have hnn : 0 ≤ (n : ℤ) * (n - 1) ∧ (n : ℤ) * (n - 1) ≤ 2 ^ 50 := by constructor <;> nlinarith
    rw [e3, fl_half (by rw [abs_of_nonneg hnn.1]; omega)]
    have e4 : (n : ℝ) - i = ((n - i : ℤ) : ℝ) := by push_cast; ring
    rw [e4, fl_int (by rw [abs_of_nonneg (by omega)]; omega)]
    have e5 : ((n - i : ℤ) : ℝ) - 1 = ((n - i - 1 : ℤ) : ℝ) := by push_cast; ring
    rw [e5, fl_int (by rw [abs_of_nonneg (by omega)]; omega)]
    have hmm : 0 ≤ ((n : ℤ) - i) * (n - i - 1) ∧ ((n : ℤ) - i) * (n - i - 1) ≤ 2 ^ 50 := by constructor <;> nlinarith
    rw [← Int.cast_mul, fl_int (by rw [abs_of_nonneg hmm.1]; omega), fl_half (by rw [abs_of_nonneg hmm.1]; omega)]
    have e6 : ((k + i + 1 : ℤ) : ℝ) - (((n : ℤ) * (n - 1) : ℤ) : ℝ) / 2 = ((2 * (k + i + 1) - n * (n - 1) : ℤ) : ℝ) / 2 := by push_cast; ring
    rw [e6, fl_half (by rw [abs_le]; constructor <;> omega)]
    have hcR : (2 : ℝ) * (k : ℝ) = n * (n - 1) - (n - i) * (n - i - 1) + 2 * (j - i - 1) := by exact_mod_cast hc
    have e7 : ((2 * (k + i + 1) - n * (n - 1) : ℤ) : ℝ) / 2 + (((n : ℤ) - i) * (n - i - 1) : ℤ) / 2 = ((j : ℤ) : ℝ) := by
      push_cast
      linear_combination hcR / 2
    rw [e7, fl_int (by rw [abs_of_nonneg (by positivity)]; omega)]
  rw [hJ, pyInt_int]
  have : ((i : ℝ)) = ((i : ℤ) : ℝ) := by simp
  rw [this, pyInt_int]

/-! ### Distances -/

theorem fl_bounds (x : ℝ) : |binary64 x| ≤ (1 + 2 ^ (-53 : ℤ)) * |x| + 2 ^ (-1075 : ℤ) ∧ (1 - 2 ^ (-53 : ℤ)) * |x| ≤ |binary64 x| + 2 ^ (-1075 : ℤ) := by
  have h := binary64_rounding.err x
  have h1 := abs_sub_abs_le_abs_sub (binary64 x) x
  have h2 := abs_sub_abs_le_abs_sub x (binary64 x)
  rw [abs_sub_comm] at h2
  generalize (2 : ℝ) ^ (-53 : ℤ) = u at *
  generalize (2 : ℝ) ^ (-1075 : ℤ) = η at *
  constructor <;> linarith

theorem fl_bounds_nonneg {x : ℝ} (h0 : 0 ≤ x) : binary64 x ≤ (1 + 2 ^ (-53 : ℤ)) * x + 2 ^ (-1075 : ℤ) ∧ (1 - 2 ^ (-53 : ℤ)) * x ≤ binary64 x + 2 ^ (-1075 : ℤ) := by
  have := fl_bounds x
  rwa [abs_of_nonneg h0, abs_of_nonneg (fl_nonneg h0)] at this

/-- Adding `η` to both coordinates. -/
theorem norm_shift {p q η : ℝ} (hη : 0 ≤ η) : (p + η) ^ 2 + (q + η) ^ 2 ≤ (Real.sqrt (p ^ 2 + q ^ 2) + 2 * η) ^ 2 := by
  have h1 : p ≤ Real.sqrt (p ^ 2 + q ^ 2) := Real.le_sqrt_of_sq_le (by nlinarith [sq_nonneg q])
  have h2 : q ≤ Real.sqrt (p ^ 2 + q ^ 2) := Real.le_sqrt_of_sq_le (by nlinarith [sq_nonneg p])
  have h3 : Real.sqrt (p ^ 2 + q ^ 2) ^ 2 = p ^ 2 + q ^ 2 := Real.sq_sqrt (by positivity)
  nlinarith [mul_le_mul_of_nonneg_left h1 hη, mul_le_mul_of_nonneg_left h2 hη, sq_nonneg η]

/-- The computed distance, in terms of a rounding of nonnegative numbers: all errors are small. -/
theorem dist_rounded {u η e dx dy dx' dy' a b S R R' : ℝ} (hu : 0 ≤ u) (hu1 : u ≤ 1) (hη : 0 ≤ η) (he : 0 ≤ e) (hηe : 8 * η ≤ e ^ 2)
    (hx : |dx'| ≤ (1 + u) * |dx| + η ∧ (1 - u) * |dx| ≤ |dx'| + η) (hy : |dy'| ≤ (1 + u) * |dy| + η ∧ (1 - u) * |dy| ≤ |dy'| + η)
    (ha : a ≤ (1 + u) * (dx' * dx') + η ∧ (1 - u) * (dx' * dx') ≤ a + η) (hb : b ≤ (1 + u) * (dy' * dy') + η ∧ (1 - u) * (dy' * dy') ≤ b + η)
    (hS : S ≤ (1 + u) * (a + b) + η ∧ (1 - u) * (a + b) ≤ S + η) (hS0 : 0 ≤ S) (hR : R = Real.sqrt S) (hR' : R' ≤ (1 + u) * R + η ∧ (1 - u) * R ≤ R' + η) :
    R' ≤ (1 + u) ^ 3 * Real.sqrt (dx ^ 2 + dy ^ 2) + ((1 + u) ^ 2 * (2 * η) + (1 + u) * e + η) ∧ (1 - u) ^ 3 * Real.sqrt (dx ^ 2 + dy ^ 2) ≤ R' + (e + 3 * η) := by
  have h1u : 0 ≤ 1 - u := by linarith
  obtain ⟨D, hD⟩ : ∃ D, D = Real.sqrt (dx ^ 2 + dy ^ 2) := ⟨_, rfl⟩
  have hD0 : 0 ≤ D := by rw [hD]; positivity
  have hD2 : D ^ 2 = dx ^ 2 + dy ^ 2 := by rw [hD]; exact Real.sq_sqrt (by positivity)
  obtain ⟨N, hN⟩ : ∃ N, N = Real.sqrt (dx' ^ 2 + dy' ^ 2) := ⟨_, rfl⟩
  have hN0 : 0 ≤ N := by rw [hN]; positivity
  have hN2 : N ^ 2 = dx' ^ 2 + dy' ^ 2 := by rw [hN]; exact Real.sq_sqrt (by positivity)
  have hR0 : 0 ≤ R := by rw [hR]; positivity
  have hR2 : R ^ 2 = S := by rw [hR]; exact Real.sq_sqrt hS0
  rw [← hD]
  -- differences
  have hNup : N ≤ (1 + u) * D + 2 * η := by
    refine abs_le_of_sq_le_sq' ?_ (by positivity) |>.2
    rw [hN2, ← sq_abs dx', ← sq_abs dy']
    have h1 := norm_shift (p := (1 + u) * |dx|) (q := (1 + u) * |dy|) hη
    have h2 : Real.sqrt (((1 + u) * |dx|) ^ 2 + ((1 + u) * |dy|) ^ 2) = (1 + u) * D := by
      rw [hD, mul_pow, mul_pow, sq_abs, sq_abs, ← mul_add, Real.sqrt_mul (by positivity), Real.sqrt_sq (by linarith)]
    rw [h2] at h1
    refine le_trans ?_ h1
    gcongr
    · exact hx.1
    · exact hy.1
  have hNlo : (1 - u) * D ≤ N + 2 * η := by
    refine abs_le_of_sq_le_sq' ?_ (by positivity) |>.2
    have h1 := norm_shift (p := |dx'|) (q := |dy'|) hη
    rw [sq_abs, sq_abs, ← hN] at h1
    refine le_trans ?_ h1
    rw [mul_pow, hD2, mul_add, ← sq_abs dx, ← sq_abs dy, ← mul_pow, ← mul_pow]
    gcongr
    · exact hx.2
    · exact hy.2
  -- root
  have hRup : R ≤ (1 + u) * N + e := by
    refine abs_le_of_sq_le_sq' ?_ (by positivity) |>.2
    rw [hR2]
    have h1 : a + b ≤ (1 + u) * N ^ 2 + 2 * η := by rw [hN2, mul_add, pow_two, pow_two]; linarith [ha.1, hb.1]
    have h2 : (1 + u) * (a + b) ≤ (1 + u) * ((1 + u) * N ^ 2 + 2 * η) := mul_le_mul_of_nonneg_left h1 (by linarith)
    have h4 : 0 ≤ (1 + u) * N * e := by positivity
    have h5 : u * η ≤ 1 * η := mul_le_mul_of_nonneg_right hu1 hη
    have h6 : ((1 + u) * N + e) ^ 2 = (1 + u) * ((1 + u) * N ^ 2 + 2 * η) - 2 * η - 2 * (u * η) + 2 * ((1 + u) * N * e) + e ^ 2 := by ring
    rw [h6]
    linarith [hS.1]
  have hRlo : (1 - u) * N ≤ R + e := by
    refine abs_le_of_sq_le_sq' ?_ (by positivity) |>.2
    have h1 : (1 - u) * N ^ 2 ≤ a + b + 2 * η := by rw [hN2, mul_add, pow_two, pow_two]; linarith [ha.2, hb.2]
    have h2 : (1 - u) * ((1 - u) * N ^ 2) ≤ (1 - u) * (a + b + 2 * η) := mul_le_mul_of_nonneg_left h1 h1u
    have h3 : 0 ≤ u * η := mul_nonneg hu hη
    have h4 : 0 ≤ R * e := mul_nonneg hR0 he
    have h5 : ((1 - u) * N) ^ 2 = (1 - u) * ((1 - u) * N ^ 2) := by ring
    have h6 : (1 - u) * (a + b + 2 * η) = (1 - u) * (a + b) + 2 * η - 2 * (u * η) := by ring
    have h7 : (R + e) ^ 2 = S + 2 * (R * e) + e ^ 2 := by rw [← hR2]; ring
    rw [h5, h7]
    linarith [hS.2]
  constructor
  · calc R' ≤ (1 + u) * R + η := hR'.1
      _ ≤ (1 + u) * ((1 + u) * ((1 + u) * D + 2 * η) + e) + η := by
          have := mul_le_mul_of_nonneg_left hNup (by linarith : 0 ≤ 1 + u)
          have := mul_le_mul_of_nonneg_left (hRup.trans (by linarith : _ ≤ (1 + u) * ((1 + u) * D + 2 * η) + e)) (by linarith : 0 ≤ 1 + u)
          linarith
      _ = _ := by ring
  · calc (1 - u) ^ 3 * D = (1 - u) * ((1 - u) * ((1 - u) * D)) := by ring
      _ ≤ (1 - u) * ((1 - u) * (N + 2 * η)) := by gcongr
      _ ≤ (1 - u) * (R + e + 2 * η) := by
          refine mul_le_mul_of_nonneg_left ?_ h1u
          nlinarith [mul_nonneg hu hη]
      _ ≤ (1 - u) * R + (e + 2 * η) := by nlinarith
      _ ≤ _ := by linarith [hR'.2]

theorem planDistFl_near (a b : Borehole) : planDistFl binary64 a b ≤ (1 + 2 ^ (-50 : ℤ)) * planDist a b + 2 ^ (-530 : ℤ) ∧
    (1 - 2 ^ (-50 : ℤ)) * planDist a b ≤ planDistFl binary64 a b + 2 ^ (-530 : ℤ) := by
  obtain ⟨h1, h2⟩ := dist_rounded (u := 2 ^ (-53 : ℤ)) (η := 2 ^ (-1075 : ℤ)) (e := 2 ^ (-536 : ℤ)) (by positivity) (by norm_num) (by positivity) (by positivity)
    (by
      rw [show (8 : ℝ) = 2 ^ (3 : ℤ) by norm_num, ← zpow_add₀ (by norm_num), ← zpow_natCast, ← zpow_mul]
      exact zpow_le_zpow_right₀ (by norm_num) (by norm_num))
    (fl_bounds (a.x - b.x)) (fl_bounds (a.y - b.y)) (fl_bounds_nonneg (mul_self_nonneg _)) (fl_bounds_nonneg (mul_self_nonneg _))
    (fl_bounds_nonneg (add_nonneg (fl_nonneg (mul_self_nonneg _)) (fl_nonneg (mul_self_nonneg _))))
    (fl_nonneg (add_nonneg (fl_nonneg (mul_self_nonneg _)) (fl_nonneg (mul_self_nonneg _)))) rfl (fl_bounds_nonneg (Real.sqrt_nonneg _))
  obtain ⟨D, hD⟩ : ∃ D, D = planDist a b := ⟨_, rfl⟩
  have hD0 : 0 ≤ D := by rw [hD]; unfold planDist; positivity
  unfold planDist at hD
  rw [← hD] at h1 h2
  unfold planDist planDistFl
  rw [← hD]
  obtain ⟨u, hu⟩ : ∃ u : ℝ, u = 2 ^ (-53 : ℤ) := ⟨_, rfl⟩
  have h50 : (2 : ℝ) ^ (-50 : ℤ) = 8 * u := by rw [hu]; norm_num
  have hu0 : 0 ≤ u := by rw [hu]; positivity
  have hu1 : u ≤ 1 / 100 := by rw [hu]; norm_num
  have hη : (2 : ℝ) ^ (-1075 : ℤ) ≤ 2 ^ (-536 : ℤ) := zpow_le_zpow_right₀ (by norm_num) (by norm_num)
  have hη0 : (0 : ℝ) ≤ 2 ^ (-1075 : ℤ) := by positivity
  have he : (2 : ℝ) ^ (-530 : ℤ) = 64 * 2 ^ (-536 : ℤ) := by
    rw [show (64 : ℝ) = 2 ^ (6 : ℤ) by norm_num, ← zpow_add₀ (by norm_num)]; norm_num
  rw [← hu] at h1 h2
  rw [h50, he]
  generalize (2 : ℝ) ^ (-1075 : ℤ) = η at *
  generalize (2 : ℝ) ^ (-536 : ℤ) = e at *
  have hc1 : (1 + u) ^ 3 ≤ 1 + 8 * u := by nlinarith [sq_nonneg u, mul_nonneg hu0 (sq_nonneg u)]
  have hc2 : 1 - 8 * u ≤ (1 - u) ^ 3 := by nlinarith [sq_nonneg u, mul_nonneg hu0 (sq_nonneg u)]
  constructor
  · have h3 := mul_le_mul_of_nonneg_right hc1 hD0
    have h4 : (1 + u) ^ 2 ≤ 2 := by nlinarith
    have h5 : (1 + u) ^ 2 * (2 * η) ≤ 2 * (2 * η) := mul_le_mul_of_nonneg_right h4 (by linarith)
    have h6 : (1 + u) * e ≤ 2 * e := mul_le_mul_of_nonneg_right (by linarith) (by linarith)
    linarith
  · have h3 := mul_le_mul_of_nonneg_right hc2 hD0
    linarith

theorem pdistFl_get (fl : ℝ → ℝ) (l : List Borehole) (i j : ℕ) (hij : i < j) (hj : j < l.length) :
    (pdistFl fl l)[cidx l.length i j]? = some (planDistFl fl (l[i]'(by omega)) l[j]) := by
  induction l generalizing i j with
  | nil => simp at hj
  | cons b l ih =>
    rw [List.length_cons] at hj
    obtain ⟨j, rfl⟩ : ∃ m, j = m + 1 := ⟨j - 1, by omega⟩
    rw [pdistFl]
    cases i with
    | zero =>
      simp only [cidx, Nat.add_sub_cancel]
      rw [List.getElem?_append_left (by simp; omega)]
      simp [List.getElem?_eq_getElem (by omega : j < l.length)]
    | succ i =>
      simp only [cidx, List.length_cons, Nat.add_sub_cancel]
      rw [List.getElem?_append_right (by simp)]
      simp only [List.length_map, Nat.add_sub_cancel_left]
      rw [ih i j (by omega) (by omega)]
      simp

theorem pdistFl_length (fl : ℝ → ℝ) (l : List Borehole) : (pdistFl fl l).length = (pdist l).length := by
  induction l with
  | nil => rfl
  | cons b l ih => simp [pdistFl, pdist, ih]

end Verif.Bore
