import Verif.Num.FloatProps

/-!
# Numbers close to a number of the format `binary64`
-/

noncomputable section

namespace Verif.Num

theorem nearestEven_of_near {y : ℝ} {m : ℤ} (h : |y - m| < 1 / 2) : nearestEven y = m := by
  have h1 := abs_le.mp (nearestEven_near y)
  have h2 := abs_lt.mp h
  have a : (nearestEven y : ℝ) - m < 1 := by linarith
  have b : (-1 : ℝ) < nearestEven y - m := by linarith
  have a' : nearestEven y - m < 1 := by exact_mod_cast a
  have b' : -1 < nearestEven y - m := by exact_mod_cast b
  omega

/-- A number of the format is a multiple of its last digit. -/
theorem IsFloat.form {x : ℝ} (hx : IsFloat binary64 x) : ∃ n : ℤ, |n| ≤ 2 ^ 53 ∧ x = n * 2 ^ lastDigit x :=
  ⟨nearestEven (x / 2 ^ lastDigit x), by exact_mod_cast nearestEven_le (div_last_le x), hx.symm⟩

theorem abs_lt_last (x : ℝ) : |x| < 2 ^ (lastDigit x + 53) := by
  refine (Int.lt_zpow_succ_log_self (by norm_num : 1 < 2) |x|).trans_le ?_
  rw [Nat.cast_ofNat]
  refine zpow_le_zpow_right₀ (by norm_num) ?_
  have := le_max_left (Int.log 2 |x| - 52) (-1074)
  unfold lastDigit
  omega

/-- Every number within the relative distance `2⁻⁵⁶` of a number of the format is rounded to it. -/
theorem binary64_near {x d : ℝ} (hx : IsFloat binary64 x) (h : |d - x| ≤ |x| / 2 ^ 56) : binary64 d = x := by
  obtain ⟨n, hn, hxn⟩ := hx.form
  obtain ⟨k, hk⟩ : ∃ k, k = lastDigit x := ⟨_, rfl⟩
  obtain ⟨L, hL⟩ : ∃ L, L = lastDigit d := ⟨_, rfl⟩
  rw [← hk] at hxn
  have hpk : (0 : ℝ) < 2 ^ k := by positivity
  have hpL : (0 : ℝ) < 2 ^ L := by positivity
  have hd : |d| < 2 ^ L * 2 ^ 53 := by
    have := abs_lt_last d
    rw [← hL, zpow_add₀ (by norm_num)] at this
    exact_mod_cast this
  have hxk : |x| < 2 ^ k * 2 ^ 53 := by
    have := abs_lt_last x
    rw [← hk, zpow_add₀ (by norm_num)] at this
    exact_mod_cast this
  have hxd : |x| ≤ |d| + |x| / 2 ^ 56 := by
    have := abs_sub_abs_le_abs_sub x d
    rw [abs_sub_comm] at this
    linarith
  have hdx : |d| ≤ |x| + |x| / 2 ^ 56 := by
    have := abs_sub_abs_le_abs_sub d x
    linarith
  have hle : L ≤ k := by
    by_contra hlt
    push Not at hlt
    have hk0 : -1074 ≤ k := by rw [hk]; exact le_max_right _ _
    have hlog : L = Int.log 2 |d| - 52 := by
      rw [hL] at hlt ⊢
      unfold lastDigit at hlt ⊢
      rcases max_choice (Int.log 2 |d| - 52) (-1074) with h | h
      · exact h
      · rw [h] at hlt; omega
    have hd0 : 0 < |d| := by
      rcases (abs_nonneg d).eq_or_lt with h0 | h0
      · have hx0 : x = 0 := by
          have : |x| ≤ 0 := by rw [← h0] at hxd; linarith
          exact abs_eq_zero.mp (le_antisymm this (abs_nonneg x))
        have : d = 0 := abs_eq_zero.mp h0.symm
        rw [hk, hL, hx0, this] at hlt
        exact absurd hlt (lt_irrefl _)
      · exact h0
    have h1 : (2 : ℝ) ^ (Int.log 2 |d|) ≤ |d| := by exact_mod_cast Int.zpow_log_le_self (by norm_num : 1 < 2) hd0
    have h2 : (2 : ℝ) ^ (k + 53) ≤ |d| := (zpow_le_zpow_right₀ (by norm_num) (by omega)).trans h1
    rw [zpow_add₀ (by norm_num)] at h2
    have h2' : (2 : ℝ) ^ k * 2 ^ 53 ≤ |d| := by exact_mod_cast h2
    have habs : |x| = |(n : ℝ)| * 2 ^ k := by rw [hxn, abs_mul, abs_of_pos hpk]
    have hn53 : |n| < 2 ^ 53 := by
      rw [habs, mul_comm] at hxk
      have := lt_of_mul_lt_mul_left hxk hpk.le
      exact_mod_cast this
    have hn1 : |(n : ℝ)| ≤ 2 ^ 53 - 1 := by
      have : |n| ≤ 2 ^ 53 - 1 := by omega
      exact_mod_cast this
    have h3 : |x| ≤ (2 ^ 53 - 1) * 2 ^ k := by rw [habs]; exact mul_le_mul_of_nonneg_right hn1 hpk.le
    generalize (2 : ℝ) ^ k = a at *
    norm_num at h2' h3 hdx hxk
    linarith
  have hint : x / 2 ^ L = ((n * 2 ^ (k - L).toNat : ℤ) : ℝ) := by
    push_cast
    rw [hxn, mul_div_assoc, ← zpow_sub₀ (by norm_num), ← zpow_natCast, Int.toNat_of_nonneg (by omega)]
  have hnear : |d / 2 ^ L - ((n * 2 ^ (k - L).toNat : ℤ) : ℝ)| < 1 / 2 := by
    rw [← hint, ← sub_div, abs_div, abs_of_pos hpL, div_lt_iff₀ hpL]
    generalize (2 : ℝ) ^ L = a at *
    norm_num at h hxd hd
    linarith
  unfold binary64
  rw [← hL, nearestEven_of_near hnear, ← hint]
  field_simp

end Verif.Num
