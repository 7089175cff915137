import Verif.Num.FloatModel

/-!
# Properties of floating-point arithmetic
-/

noncomputable section

namespace Verif.Num

/-! ### `binary64` is a rounding -/

theorem nearestEven_near (x : ℝ) : |(nearestEven x : ℝ) - x| ≤ 1 / 2 := by
  have h1 := Int.floor_le x
  have h2 := Int.lt_floor_add_one x
  unfold nearestEven
  split_ifs <;> push_cast <;> rw [abs_le] <;> constructor <;> linarith

/-- In the middle between two integers the result is even. -/
theorem nearestEven_tie {x : ℝ} (h : x - ⌊x⌋ = 1 / 2) : Even (nearestEven x) := by
  unfold nearestEven
  rw [if_neg (by rw [h]; exact lt_irrefl _), if_neg (by rw [h]; exact lt_irrefl _)]
  split_ifs with he
  · exact he
  · exact (Int.not_even_iff_odd.mp he).add_one

example : Even (nearestEven (5 / 2)) := nearestEven_tie (by
  rw [show ⌊(5 / 2 : ℝ)⌋ = 2 by rw [Int.floor_eq_iff]; norm_num]
  norm_num)

theorem nearestEven_int (n : ℤ) : nearestEven n = n := by
  unfold nearestEven
  simp

theorem nearestEven_le {x : ℝ} {n : ℕ} (h : |x| ≤ n) : |nearestEven x| ≤ n := by
  have h1 := abs_le.mp (nearestEven_near x)
  have h2 := abs_le.mp h
  rw [abs_le]
  constructor
  · have : (-(n : ℤ) - 1 : ℝ) < nearestEven x := by push_cast; linarith
    have : -(n : ℤ) - 1 < nearestEven x := by exact_mod_cast this
    omega
  · have : (nearestEven x : ℝ) < (n : ℤ) + 1 := by push_cast; linarith
    have : nearestEven x < (n : ℤ) + 1 := by exact_mod_cast this
    omega

theorem pow_last_pos (x : ℝ) : (0 : ℝ) < 2 ^ lastDigit x := by positivity

/-- Multiples of a power of two with at most 53 digits are numbers of the format. -/
theorem binary64_exact (n e : ℤ) (hn : |n| ≤ 2 ^ 53) (he : -1074 ≤ e) : binary64 (n * 2 ^ e) = n * 2 ^ e := by
  have key : ∃ m : ℤ, (n * 2 ^ e : ℝ) / 2 ^ lastDigit (n * 2 ^ e) = m := by
    obtain ⟨d, hd⟩ : ∃ d, d = lastDigit (n * 2 ^ e) := ⟨_, rfl⟩
    rw [← hd]
    rcases eq_or_ne n 0 with rfl | h0
    · exact ⟨0, by simp⟩
    have habs : |(n * 2 ^ e : ℝ)| = |(n : ℝ)| * 2 ^ e := by rw [abs_mul, abs_of_pos (by positivity : (0 : ℝ) < 2 ^ e)]
    have hpos : (0 : ℝ) < |(n * 2 ^ e : ℝ)| := by rw [habs]; have : (0 : ℝ) < |(n : ℝ)| := abs_pos.mpr (by exact_mod_cast h0)
                                                  positivity
    by_cases hs : d ≤ e
    · refine ⟨n * 2 ^ (e - d).toNat, ?_⟩
      push_cast
      rw [mul_div_assoc, ← zpow_sub₀ (by norm_num), ← zpow_natCast, Int.toNat_of_nonneg (by omega)]
    · -- then `n` is `± 2^53`
      push Not at hs
      have hlog : d = Int.log 2 |(n * 2 ^ e : ℝ)| - 52 := by
        rw [hd] at hs ⊢
        unfold lastDigit at hs ⊢
        rcases max_choice (Int.log 2 |(n * 2 ^ e : ℝ)| - 52) (-1074) with h | h
        · exact h
        · rw [h] at hs; omega
      have h1 : (2 : ℝ) ^ (Int.log 2 |(n * 2 ^ e : ℝ)|) ≤ |(n : ℝ)| * 2 ^ e := by
        rw [← habs]; exact_mod_cast Int.zpow_log_le_self (by norm_num : 1 < 2) hpos
      have hn' : |(n : ℝ)| ≤ 2 ^ (53 : ℤ) := by norm_cast
      have h2 : (2 : ℝ) ^ (e + 53) ≤ 2 ^ (Int.log 2 |(n * 2 ^ e : ℝ)|) := zpow_le_zpow_right₀ (by norm_num) (by omega)
      have h3 : (2 : ℝ) ^ (53 : ℤ) ≤ |(n : ℝ)| := by
        have := h2.trans h1
        rw [zpow_add₀ (by norm_num), mul_comm] at this
        exact le_of_mul_le_mul_right this (by positivity)
      have h4 : |(n : ℝ)| = 2 ^ (53 : ℤ) := le_antisymm hn' h3
      have hup : Int.log 2 |(n * 2 ^ e : ℝ)| = 53 + e := by
        rw [habs, h4, ← zpow_add₀ (by norm_num)]
        exact_mod_cast Int.log_zpow (R := ℝ) (by norm_num : 1 < 2) (53 + e)
      have hde : d = e + 1 := by omega
      have h5 : |n| = 2 ^ 53 := by
        have : ((|n| : ℤ) : ℝ) = ((2 ^ 53 : ℤ) : ℝ) := by push_cast; rw [h4]; norm_cast
        exact_mod_cast this
      rw [hde, zpow_add₀ (by norm_num)]
      rcases abs_choice n with h | h <;> rw [h] at h5
      · exact ⟨2 ^ 52, by rw [h5]; push_cast; field_simp; norm_num⟩
      · refine ⟨-2 ^ 52, ?_⟩
        rw [show n = -2 ^ 53 by omega]; push_cast; field_simp; norm_num
  obtain ⟨m, hm⟩ := key
  unfold binary64
  rw [hm, nearestEven_int, ← hm]
  field_simp

theorem div_last_le (x : ℝ) : |x / 2 ^ lastDigit x| ≤ (2 ^ 53 : ℕ) := by
  rw [abs_div, abs_of_pos (pow_last_pos x), div_le_iff₀ (pow_last_pos x)]
  have h := (Int.lt_zpow_succ_log_self (by norm_num : 1 < 2) |x|).le
  refine h.trans ?_
  rw [Nat.cast_pow, Nat.cast_ofNat, ← zpow_natCast, ← zpow_add₀ (by norm_num)]
  refine zpow_le_zpow_right₀ (by norm_num) ?_
  have := le_max_left (Int.log 2 |x| - 52) (-1074)
  unfold lastDigit
  push_cast
  omega

/-- Double precision is a rounding with unit roundoff `2^-53` and underflow error `2^-1075`. -/
theorem binary64_rounding : Rounding (2 ^ (-53 : ℤ)) (2 ^ (-1075 : ℤ)) binary64 := by
  refine ⟨by positivity, by positivity, fun x => ?_, fun x => ?_, fun n hn => ?_⟩
  · rcases eq_or_ne x 0 with rfl | h0
    · rw [show binary64 0 = 0 by simpa using binary64_exact 0 0 (by norm_num) (by norm_num)]
      simp only [sub_self, abs_zero, mul_zero, zero_add]
      positivity
    have hp := pow_last_pos x
    have h : binary64 x - x = (nearestEven (x / 2 ^ lastDigit x) - x / 2 ^ lastDigit x) * 2 ^ lastDigit x := by
      unfold binary64; field_simp
    rw [h, abs_mul, abs_of_pos hp]
    have h1 := mul_le_mul_of_nonneg_right (nearestEven_near (x / 2 ^ lastDigit x)) hp.le
    refine h1.trans ?_
    rcases max_choice (Int.log 2 |x| - 52) (-1074) with hc | hc
    · have hx : (2 : ℝ) ^ lastDigit x ≤ 2 ^ (-52 : ℤ) * |x| := by
        have := Int.zpow_log_le_self (R := ℝ) (by norm_num : 1 < 2) (abs_pos.mpr h0)
        unfold lastDigit
        rw [hc, sub_eq_add_neg, zpow_add₀ (by norm_num), mul_comm]
        exact mul_le_mul_of_nonneg_left (by exact_mod_cast this) (by positivity)
      have h53 : (2 : ℝ) ^ (-53 : ℤ) = 1 / 2 * 2 ^ (-52 : ℤ) := by rw [show (-53 : ℤ) = -1 + -52 by norm_num, zpow_add₀ (by norm_num)]; norm_num
      have h0 : (0 : ℝ) < 2 ^ (-1075 : ℤ) := by positivity
      rw [h53]
      generalize (2 : ℝ) ^ (-1075 : ℤ) = a at *
      generalize (2 : ℝ) ^ (-52 : ℤ) = b at *
      nlinarith
    · have : (2 : ℝ) ^ (-1075 : ℤ) = 1 / 2 * 2 ^ (-1074 : ℤ) := by rw [show (-1075 : ℤ) = -1 + -1074 by norm_num, zpow_add₀ (by norm_num)]; norm_num
      unfold lastDigit
      rw [hc, this]
      exact le_add_of_nonneg_left (by positivity)
  · refine binary64_exact _ _ (by exact_mod_cast nearestEven_le (div_last_le x)) (le_max_right _ _)
  · have h : (n : ℝ) ≤ 2 ^ 53 := by
      rw [zpow_neg, ← div_eq_mul_inv, div_le_one (by positivity)] at hn
      exact_mod_cast hn
    have := binary64_exact n 0 (by rw [abs_of_nonneg (by positivity)]; exact_mod_cast h) (by norm_num)
    simpa using this

/-! ### Sums of products -/

theorem Rounding.zero {u η : ℝ} {fl : ℝ → ℝ} (h : Rounding u η fl) : fl 0 = 0 := by simpa using h.nat 0 (by simp)

theorem Rounding.one {u η : ℝ} {fl : ℝ → ℝ} (h : Rounding u η fl) (hu : u ≤ 1) : fl 1 = 1 := by simpa using h.nat 1 (by simpa using hu)

open Classical in
/-- Number of products that are not zero. -/
def nonzeros (l : List (ℝ × ℝ)) : ℕ := l.countP fun p => decide (p.1 * p.2 ≠ 0)

/-- The sum of the products, and of their absolute values. -/
def dot (l : List (ℝ × ℝ)) : ℝ := (l.map fun p => p.1 * p.2).sum
def dotAbs (l : List (ℝ × ℝ)) : ℝ := (l.map fun p => |p.1 * p.2|).sum

theorem dot_cons (p : ℝ × ℝ) (l : List (ℝ × ℝ)) : dot (p :: l) = p.1 * p.2 + dot l := rfl
theorem dotAbs_cons (p : ℝ × ℝ) (l : List (ℝ × ℝ)) : dotAbs (p :: l) = |p.1 * p.2| + dotAbs l := rfl
theorem dot_append (l m : List (ℝ × ℝ)) : dot (l ++ m) = dot l + dot m := by simp [dot]
theorem dotAbs_append (l m : List (ℝ × ℝ)) : dotAbs (l ++ m) = dotAbs l + dotAbs m := by simp [dotAbs]
theorem nonzeros_append (l m : List (ℝ × ℝ)) : nonzeros (l ++ m) = nonzeros l + nonzeros m := by simp [nonzeros]
theorem nonzeros_cons (p : ℝ × ℝ) (l : List (ℝ × ℝ)) : nonzeros (p :: l) = nonzeros l + if p.1 * p.2 = 0 then 0 else 1 := by
  unfold nonzeros
  by_cases h : p.1 * p.2 = 0
  · rw [List.countP_cons_of_neg (by simp [h]), if_pos h, add_zero]
  · rw [List.countP_cons_of_pos (by simpa using h), if_neg h]
theorem nonzeros_le (l : List (ℝ × ℝ)) : nonzeros l ≤ l.length := List.countP_le_length
theorem dotAbs_nonneg (l : List (ℝ × ℝ)) : 0 ≤ dotAbs l := List.sum_nonneg fun x hx => by obtain ⟨p, -, rfl⟩ := List.mem_map.mp hx; exact abs_nonneg _
theorem abs_dot_le (l : List (ℝ × ℝ)) : |dot l| ≤ dotAbs l := by
  induction l with
  | nil => simp [dot, dotAbs]
  | cons p l ih => rw [dot_cons, dotAbs_cons]; exact (abs_add_le _ _).trans (by linarith)
theorem dot_eq_zero {l : List (ℝ × ℝ)} (h : nonzeros l = 0) : dot l = 0 := by
  induction l with
  | nil => rfl
  | cons p l ih =>
    rw [nonzeros_cons] at h
    have h2 : p.1 * p.2 = 0 := by by_contra hc; simp [hc] at h
    rw [dot_cons, h2, ih (by omega), add_zero]

/-- Bound of the error of a sum of products. -/
def dotError (u η : ℝ) (n : ℕ) (A : ℝ) : ℝ := ((1 + u) ^ n - 1) * A + (2 * n - 1 : ℕ) * (1 + u) ^ n * η

section
variable {u η : ℝ} {fl : ℝ → ℝ}

theorem dotError_mono (hu : 0 ≤ u) {n : ℕ} {A B : ℝ} (h : A ≤ B) : dotError u η n A ≤ dotError u η n B := by
  unfold dotError
  have : 0 ≤ (1 + u) ^ n - 1 := sub_nonneg.mpr (one_le_pow₀ (by linarith))
  nlinarith

theorem dotError_add (hu : 0 ≤ u) (hη : 0 ≤ η) {a b s t A B : ℝ} {m n : ℕ} (hm : 1 ≤ m) (hn : 1 ≤ n) (hs : |s| ≤ A) (ht : |t| ≤ B)
    (ha : |a - s| ≤ dotError u η m A) (hb : |b - t| ≤ dotError u η n B) {r : ℝ} (hr : |r - (a + b)| ≤ u * |a + b| + η) : |r - (s + t)| ≤ dotError u η (m + n) (A + B) := by
  have h1 : (1 : ℝ) ≤ 1 + u := by linarith
  have hA : 0 ≤ A := (abs_nonneg _).trans hs
  have hB : 0 ≤ B := (abs_nonneg _).trans ht
  have hst : |s + t| ≤ A + B := (abs_add_le _ _).trans (by linarith)
  have hab : |a + b - (s + t)| ≤ dotError u η m A + dotError u η n B := by
    rw [show a + b - (s + t) = (a - s) + (b - t) by ring]
    exact (abs_add_le _ _).trans (add_le_add ha hb)
  have hab' : |a + b| ≤ A + B + (dotError u η m A + dotError u η n B) := by
    have := abs_add_le (s + t) (a + b - (s + t))
    rw [show s + t + (a + b - (s + t)) = a + b by ring] at this
    linarith
  have e1 : |r - (s + t)| ≤ u * (A + B) + (1 + u) * (dotError u η m A + dotError u η n B) + η := by
    rw [show r - (s + t) = (r - (a + b)) + (a + b - (s + t)) by ring]
    refine (abs_add_le _ _).trans ?_
    have := mul_le_mul_of_nonneg_left hab' hu
    linarith
  refine e1.trans ?_
  have p1 : (1 + u) * (1 + u) ^ m ≤ (1 + u) ^ (m + n) := by rw [← pow_succ']; exact pow_le_pow_right₀ h1 (by omega)
  have p2 : (1 + u) * (1 + u) ^ n ≤ (1 + u) ^ (m + n) := by rw [← pow_succ']; exact pow_le_pow_right₀ h1 (by omega)
  have p3 : 1 ≤ (1 + u) ^ (m + n) := one_le_pow₀ h1
  unfold dotError
  obtain ⟨c, hc⟩ : ∃ c : ℝ, c = ((2 * m - 1 : ℕ) : ℝ) := ⟨_, rfl⟩
  obtain ⟨d, hd⟩ : ∃ d : ℝ, d = ((2 * n - 1 : ℕ) : ℝ) := ⟨_, rfl⟩
  have hcd : ((2 * (m + n) - 1 : ℕ) : ℝ) = c + d + 1 := by rw [hc, hd]; norm_cast; omega
  have hc0 : 0 ≤ c := by rw [hc]; positivity
  have hd0 : 0 ≤ d := by rw [hd]; positivity
  rw [hcd, ← hc, ← hd]
  have q1 := mul_le_mul_of_nonneg_right p1 hA
  have q2 := mul_le_mul_of_nonneg_right p2 hB
  have q3 := mul_le_mul_of_nonneg_right (mul_le_mul_of_nonneg_left p1 hc0) hη
  have q4 := mul_le_mul_of_nonneg_right (mul_le_mul_of_nonneg_left p2 hd0) hη
  have q5 := mul_le_mul_of_nonneg_right p3 hη
  linarith

/-- **Sums of products in floating-point arithmetic**: whatever the order of the additions, with or without fused multiply-add, the error is at most `(1 + u)^n - 1` times the sum
of the absolute values of the products, where `n` is the number of products that are not zero, and an underflow term. -/
theorem Eval.error (h : Rounding u η fl) {l : List (ℝ × ℝ)} {a : ℝ} (e : Eval fl l a) :
    fl a = a ∧ (nonzeros l = 0 → a = 0) ∧ |a - dot l| ≤ dotError u η (nonzeros l) (dotAbs l) := by
  induction e with
  | nil => exact ⟨h.zero, fun _ => rfl, by simp [dot, dotAbs, nonzeros, dotError]⟩
  | term x y =>
    refine ⟨h.idem _, ?_, ?_⟩
    · intro hn
      rw [nonzeros_cons] at hn
      have : x * y = 0 := by by_contra hc; simp [hc] at hn
      rw [this, h.zero]
    · rw [dot_cons, dotAbs_cons, nonzeros_cons]
      simp only [dot, dotAbs, nonzeros, List.map_nil, List.sum_nil, add_zero, List.countP_nil, zero_add]
      by_cases hc : x * y = 0
      · rw [if_pos hc, hc, h.zero]; simp [dotError]
      · rw [if_neg hc]
        have := h.err (x * y)
        have hu := h.u_nonneg
        have hη := mul_nonneg h.u_nonneg h.η_nonneg
        unfold dotError
        simp only [pow_one, mul_one, Nat.add_one_sub_one, Nat.cast_one, one_mul]
        linarith
  | @add l m a b _ _ ih1 ih2 =>
    obtain ⟨f1, z1, b1⟩ := ih1
    obtain ⟨f2, z2, b2⟩ := ih2
    rw [nonzeros_append, dot_append, dotAbs_append]
    refine ⟨h.idem _, fun hn => by rw [z1 (by omega), z2 (by omega), add_zero, h.zero], ?_⟩
    rcases Nat.eq_zero_or_pos (nonzeros l) with hl | hl
    · rw [z1 hl, zero_add, f2, dot_eq_zero hl, hl, zero_add, zero_add]
      exact b2.trans (dotError_mono h.u_nonneg (by have := dotAbs_nonneg l; linarith))
    rcases Nat.eq_zero_or_pos (nonzeros m) with hm | hm
    · rw [z2 hm, add_zero, f1, dot_eq_zero hm, hm, add_zero, add_zero]
      exact b1.trans (dotError_mono h.u_nonneg (by have := dotAbs_nonneg m; linarith))
    exact dotError_add h.u_nonneg h.η_nonneg hl hm (abs_dot_le l) (abs_dot_le m) b1 b2 (h.err _)
  | @fma l a x y _ ih =>
    obtain ⟨f1, z1, b1⟩ := ih
    rw [nonzeros_cons, dot_cons, dotAbs_cons]
    refine ⟨h.idem _, fun hn => ?_, ?_⟩
    · have hc : x * y = 0 := by by_contra hc; simp [hc] at hn
      rw [hc, z1 (by omega), add_zero, h.zero]
    · by_cases hc : x * y = 0
      · dsimp only
        rw [if_pos hc, hc, zero_add, f1, abs_zero, zero_add, zero_add, add_zero]
        exact b1
      · rw [if_neg hc]
        dsimp only
        rcases Nat.eq_zero_or_pos (nonzeros l) with hl | hl
        · rw [z1 hl, dot_eq_zero hl, hl, add_zero, zero_add]
          have := h.err (x * y)
          have hu := h.u_nonneg
          have hη := mul_nonneg h.u_nonneg h.η_nonneg
          have := mul_nonneg hu (dotAbs_nonneg l)
          unfold dotError
          simp only [pow_one, mul_one, Nat.add_one_sub_one, Nat.cast_one, one_mul]
          linarith
        · rw [add_comm (nonzeros l) 1]
          exact dotError_add h.u_nonneg h.η_nonneg (a := x * y) (A := |x * y|) le_rfl hl le_rfl (abs_dot_le l) (by
            rw [sub_self, abs_zero]
            have := h.u_nonneg
            have := h.η_nonneg
            unfold dotError
            simp only [pow_one, mul_one, Nat.add_one_sub_one, Nat.cast_one, one_mul]
            have := mul_nonneg h.u_nonneg (abs_nonneg (x * y))
            nlinarith [mul_nonneg h.u_nonneg h.η_nonneg]) b1 (h.err _)
  | perm hp _ ih =>
    obtain ⟨f1, z1, b1⟩ := ih
    have e1 := hp.countP_eq fun p : ℝ × ℝ => decide (p.1 * p.2 ≠ 0)
    have e2 := (hp.map fun p : ℝ × ℝ => p.1 * p.2).sum_eq
    have e3 := (hp.map fun p : ℝ × ℝ => |p.1 * p.2|).sum_eq
    unfold nonzeros dot dotAbs at *
    rw [← e1, ← e2, ← e3]
    exact ⟨f1, z1, b1⟩

end

end Verif.Num
