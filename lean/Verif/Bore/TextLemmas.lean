import Verif.Bore.TextModel
import Verif.Bore.FieldProps
import Verif.Num.NearProps

/-!
# Lemmas on formatted numbers and the parts of a text
-/

noncomputable section

namespace Verif.Bore

open Verif.Num

/-! ### Digits -/

theorem digitChar_spec (d : ℕ) (h : d < 10) : (Nat.digitChar d).isDigit = true ∧ (Nat.digitChar d).toNat - 48 = d := by
  interval_cases d <;> decide

theorem digits_isDigit (w n : ℕ) : ∀ c ∈ digits w n, c.isDigit = true := by
  induction w generalizing n with
  | zero => intro c hc; simp [digits] at hc
  | succ w ih =>
    intro c hc
    rw [digits, List.mem_append] at hc
    rcases hc with hc | hc
    · exact ih _ c hc
    · rw [List.mem_singleton.mp hc]; exact (digitChar_spec _ (Nat.mod_lt _ (by norm_num))).1

theorem digits_length (w n : ℕ) : (digits w n).length = w := by
  induction w generalizing n with
  | zero => rfl
  | succ w ih => rw [digits, List.length_append, ih]; rfl

theorem digits_ne_nil (w n : ℕ) (h : 0 < w) : digits w n ≠ [] := fun e => by
  have := digits_length w n
  rw [e, List.length_nil] at this
  omega

theorem number_append (a b : List Char) : number (a ++ b) = number a * 10 ^ b.length + number b := by
  induction b using List.reverseRecOn with
  | nil => simp [number]
  | append_singleton b c ih =>
    rw [← List.append_assoc]
    have h : ∀ s : List Char, number (s ++ [c]) = 10 * number s + (c.toNat - 48) := fun s => by simp [number]
    rw [h, h, ih, List.length_append, List.length_singleton, pow_succ]
    ring

theorem number_digits (w n : ℕ) : number (digits w n) = n % 10 ^ w := by
  induction w generalizing n with
  | zero => simp [digits, number, Nat.mod_one]
  | succ w ih =>
    rw [digits, number_append, ih, List.length_singleton, pow_one]
    have h : number [Nat.digitChar (n % 10)] = n % 10 := by
      simpa [number] using (digitChar_spec (n % 10) (Nat.mod_lt _ (by norm_num))).2
    rw [h, pow_succ, mul_comm (10 ^ w) 10, Nat.mod_mul]
    ring

/-! ### The decimal that is written -/

theorem scientific_spec (x : ℝ) : (scientific x).1 < 10 ^ 19 ∧ abs (((scientific x).1 : ℝ) * 10 ^ ((scientific x).2 - 18) - |x|) ≤ |x| / 2 ^ 56 := by
  obtain ⟨e, he⟩ : ∃ e, e = Int.log 10 |x| := ⟨_, rfl⟩
  obtain ⟨y, hy⟩ : ∃ y, y = |x| / 10 ^ (e - 18) := ⟨_, rfl⟩
  have hp : (0 : ℝ) < 10 ^ (e - 18) := by positivity
  have hy0 : 0 ≤ y := by rw [hy]; positivity
  have hxy : |x| = y * 10 ^ (e - 18) := by rw [hy]; field_simp
  have hnear := abs_le.mp (nearestEven_near y)
  have hn0 : 0 ≤ nearestEven y := by
    have : (-1 : ℝ) < nearestEven y := by linarith
    have : -1 < nearestEven y := by exact_mod_cast this
    omega
  have hy19 : y < 10 ^ 19 := by
    have h := Int.lt_zpow_succ_log_self (by norm_num : 1 < 10) |x|
    rw [← he, hxy, Nat.cast_ofNat, show e + 1 = 19 + (e - 18) by ring, zpow_add₀ (by norm_num)] at h
    exact_mod_cast lt_of_mul_lt_mul_right h hp.le
  have hle : nearestEven y ≤ 10 ^ 19 := by
    have : (nearestEven y : ℝ) < 10 ^ 19 + 1 := by linarith
    have : nearestEven y < 10 ^ 19 + 1 := by exact_mod_cast this
    omega
  have hm : (((nearestEven y).toNat : ℕ) : ℝ) = nearestEven y := by exact_mod_cast Int.toNat_of_nonneg hn0
  have herr : abs ((nearestEven y : ℝ) * 10 ^ (e - 18) - |x|) ≤ |x| / 2 ^ 56 := by
    rcases eq_or_ne x 0 with h0 | h0
    · have : y = 0 := by rw [hy, h0]; simp
      rw [this, h0, show nearestEven 0 = 0 by simpa using nearestEven_int 0]
      simp
    · have h18 : 10 ^ 18 ≤ y := by
        have h := Int.zpow_log_le_self (R := ℝ) (by norm_num : 1 < 10) (abs_pos.mpr h0)
        rw [← he, hxy, Nat.cast_ofNat, show e = 18 + (e - 18) by ring, zpow_add₀ (by norm_num)] at h
        rw [show 18 + (e - 18) - 18 = e - 18 by ring] at h
        exact_mod_cast le_of_mul_le_mul_right h hp
      rw [hxy, ← sub_mul, abs_mul, abs_of_pos hp, mul_div_right_comm]
      refine mul_le_mul_of_nonneg_right ?_ hp.le
      refine (nearestEven_near y).trans ?_
      norm_num at h18 ⊢
      linarith
  unfold scientific
  dsimp only
  rw [← he, ← hy]
  by_cases h : (nearestEven y).toNat = 10 ^ 19
  · rw [if_pos h]
    refine ⟨by norm_num, ?_⟩
    rw [h] at hm
    push_cast at hm ⊢
    rw [← hm] at herr
    rw [show e + 1 - 18 = 1 + (e - 18) by ring, zpow_add₀ (by norm_num), zpow_one, ← mul_assoc]
    norm_num at herr ⊢
    exact herr
  · rw [if_neg h]
    refine ⟨by omega, ?_⟩
    dsimp only
    rw [hm]
    exact herr

theorem takeWhile_append_stop {p : Char → Bool} {a r : List Char} {c : Char} (ha : ∀ x ∈ a, p x = true) (hc : p c = false) :
    (a ++ c :: r).takeWhile p = a ∧ (a ++ c :: r).dropWhile p = c :: r := by
  induction a with
  | nil => simp [hc]
  | cons x a ih =>
    have hx := ha x (by simp)
    have := ih fun y hy => ha y (by simp [hy])
    simp [hx, this]

/-- Reading an integer part, a fraction and an exponent. -/
theorem parse_form (neg eneg : Bool) (a b e : List Char) (ha : ∀ c ∈ a, c.isDigit = true) (hb : ∀ c ∈ b, c.isDigit = true)
    (he : ∀ c ∈ e, c.isDigit = true) (ha0 : a ≠ []) (he0 : e ≠ []) :
    parse ((if neg then ['-'] else []) ++ a ++ '.' :: b ++ 'e' :: (if eneg then '-' else '+') :: e) =
      some (binary64 ((if neg then -1 else 1) * number (a ++ b) * 10 ^ ((if eneg then -(number e : ℤ) else number e) - (b.length : ℤ)))) := by
  have hs : readSign ((if neg then ['-'] else []) ++ a ++ '.' :: b ++ 'e' :: (if eneg then '-' else '+') :: e) =
      (neg, a ++ '.' :: (b ++ 'e' :: (if eneg then '-' else '+') :: e)) := by
    cases neg
    · obtain ⟨c, r, rfl⟩ : ∃ c r, a = c :: r := List.exists_cons_of_ne_nil ha0
      have hc := ha c (by simp)
      have h1 : c ≠ '-' := by rintro rfl; revert hc; decide
      have h2 : c ≠ '+' := by rintro rfl; revert hc; decide
      simp [readSign, h1, h2]
    · simp [readSign]
  obtain ⟨h1, h2⟩ := takeWhile_append_stop (p := Char.isDigit) (a := a) (c := '.') (r := b ++ 'e' :: (if eneg then '-' else '+') :: e) ha (by decide)
  obtain ⟨h3, h4⟩ := takeWhile_append_stop (p := Char.isDigit) (a := b) (c := 'e') (r := (if eneg then '-' else '+') :: e) hb (by decide)
  have hx : readExponent ('e' :: (if eneg then '-' else '+') :: e) = some (if eneg then -(number e : ℤ) else number e) := by
    cases eneg <;> simp [readExponent, readSign, he0] <;> exact he
  unfold parse
  dsimp only
  rw [hs]
  dsimp only
  rw [h1, h2]
  simp only [readFraction]
  rw [h3, h4, hx, if_neg (by simp [ha0])]
  rfl

/-- **Numbers survive**: what is written is read back. -/
theorem parse_format_eq (x : ℝ) (hx : IsFloat binary64 x) : parse (format x) = some x := by
  obtain ⟨hm, herr⟩ := scientific_spec x
  obtain ⟨m, hmm⟩ : ∃ m, m = (scientific x).1 := ⟨_, rfl⟩
  obtain ⟨e, hee⟩ : ∃ e, e = (scientific x).2 := ⟨_, rfl⟩
  rw [← hmm] at hm herr
  rw [← hee] at herr
  have h := parse_form (decide (x < 0)) (decide (e < 0)) (digits 1 (m / 10 ^ 18)) (digits 18 m) (digits (max 2 (Nat.log 10 e.natAbs + 1)) e.natAbs)
    (digits_isDigit _ _) (digits_isDigit _ _) (digits_isDigit _ _)
    (digits_ne_nil _ _ Nat.one_pos) (digits_ne_nil _ _ (lt_max_of_lt_left Nat.two_pos))
  simp only [decide_eq_true_eq] at h
  unfold format
  dsimp only
  rw [← hmm, ← hee, h]
  have hexp : number (digits (max 2 (Nat.log 10 e.natAbs + 1)) e.natAbs) = e.natAbs := by
    rw [number_digits, Nat.mod_eq_of_lt]
    exact (Nat.lt_pow_succ_log_self (by norm_num) _).trans_le (Nat.pow_le_pow_right (by norm_num) (le_max_right _ _))
  have hman : number (digits 1 (m / 10 ^ 18) ++ digits 18 m) = m := by
    rw [number_append, number_digits, number_digits, digits_length, pow_one]
    have : m / 10 ^ 18 < 10 := by omega
    rw [Nat.mod_eq_of_lt this]
    omega
  rw [hexp, hman, digits_length]
  have he : (if e < 0 then -((e.natAbs : ℕ) : ℤ) else (e.natAbs : ℤ)) = e := by split_ifs <;> omega
  rw [he]
  refine congrArg some (binary64_near hx ?_)
  rw [Nat.cast_ofNat]
  split_ifs with h0
  · rw [abs_of_neg h0] at herr ⊢
    rw [show -1 * (m : ℝ) * 10 ^ (e - 18) - x = -(m * 10 ^ (e - 18) - -x) by ring, abs_neg]
    exact herr
  · push Not at h0
    rw [abs_of_nonneg h0] at herr ⊢
    rw [one_mul]
    exact herr

/-! ### Parts of a text -/

theorem split_stop {p : Char → Bool} {a r : List Char} {c : Char} (ha : ∀ x ∈ a, p x = false) (hc : p c = true) :
    split p (a ++ c :: r) = a :: split p r := by
  induction a with
  | nil => simp [split, hc]
  | cons x a ih =>
    have hx := ha x (by simp)
    rw [List.cons_append, split, hx, ih fun y hy => ha y (by simp [hy])]
    rfl

theorem split_none {p : Char → Bool} {a : List Char} (ha : ∀ x ∈ a, p x = false) : split p a = [a] := by
  induction a with
  | nil => rfl
  | cons x a ih =>
    rw [split, ha x (by simp), ih fun y hy => ha y (by simp [hy])]
    rfl

theorem split_ne_nil (p : Char → Bool) (a : List Char) : split p a ≠ [] := by
  cases a with
  | nil => simp [split]
  | cons c r =>
    rw [split]
    split_ifs
    · simp
    · split <;> simp

theorem split_append {p : Char → Bool} {r : List Char} {c : Char} (hc : p c = true) (a : List Char) :
    split p (a ++ c :: r) = split p a ++ split p r := by
  induction a with
  | nil => simp [split, hc]
  | cons x a ih =>
    rw [List.cons_append, split, split]
    by_cases hx : p x = true
    · rw [if_pos hx, if_pos hx, ih]; rfl
    · rw [if_neg hx, if_neg hx, ih]
      rcases h : split p a with _ | ⟨u, t⟩
      · exact absurd h (split_ne_nil _ _)
      · rfl

end Verif.Bore
