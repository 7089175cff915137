import Verif.LoadAgg.RoundLemmas

/-!
# Lemmas: rounding errors of the time grid of the Claesson-Javed aggregation
-/

noncomputable section

namespace Verif.LoadAgg.Rnd

open Num CJ Finset

variable {u η : ℝ} {fl : ℝ → ℝ} {n : ℕ} {dt : ℝ} {c : ℕ}

/-- The level of a cell is computed without error. -/
theorem ceil_fl (h : Rounding u η fl) (hc : 1 ≤ c) (k : ℕ) (hk : (k + 1) * u + c * η < 1) : ⌈fl (((k + 1 : ℕ) : ℝ) / (c : ℝ))⌉₊ - 1 = k / c := by
  have hc' : (0 : ℝ) < c := by exact_mod_cast hc
  have hu := h.u_nonneg
  have hη := h.η_nonneg
  have hd := Nat.div_add_mod k c
  have hr := Nat.mod_lt k hc
  obtain ⟨a, ha⟩ : ∃ a, a = k / c := ⟨_, rfl⟩
  obtain ⟨r, hr'⟩ : ∃ r, r = k % c := ⟨_, rfl⟩
  rw [← ha, ← hr'] at hd
  rw [← hr'] at hr
  rw [← ha]
  have hkr : (k : ℝ) = c * a + r := by exact_mod_cast hd.symm
  by_cases hl : r + 1 = c
  · have e : ((k + 1 : ℕ) : ℝ) / (c : ℝ) = ((a + 1 : ℕ) : ℝ) := by
      rw [div_eq_iff hc'.ne']
      have : (r : ℝ) + 1 = c := by exact_mod_cast hl
      push_cast
      rw [hkr]
      linarith
    rw [e, h.nat, Nat.ceil_natCast]
    · simp
    · have : ((a + 1 : ℕ) : ℝ) ≤ k + 1 := by
        have : a ≤ k := by rw [ha]; exact Nat.div_le_self k c
        exact_mod_cast Nat.succ_le_succ this
      have : 0 ≤ c * η := by positivity
      nlinarith
  · have hl' : (r : ℝ) + 2 ≤ c := by exact_mod_cast (by omega : r + 2 ≤ c)
    have hx : ((k + 1 : ℕ) : ℝ) / (c : ℝ) = a + (r + 1) / c := by
      push_cast
      rw [hkr]
      field_simp
      ring
    have he := h.err (((k + 1 : ℕ) : ℝ) / (c : ℝ))
    rw [abs_of_nonneg (a := ((k + 1 : ℕ) : ℝ) / (c : ℝ)) (by positivity)] at he
    have hb : u * (((k + 1 : ℕ) : ℝ) / (c : ℝ)) + η < 1 / c := by
      rw [lt_div_iff₀ hc', add_mul, mul_assoc, div_mul_cancel₀ _ hc'.ne']
      push_cast
      linarith
    have h1 : 1 / (c : ℝ) ≤ (r + 1) / c := by
      have := Nat.cast_nonneg (α := ℝ) r
      gcongr
      linarith
    have h2 : (r + 1) / (c : ℝ) ≤ 1 - 1 / c := by
      rw [le_sub_iff_add_le, ← add_div, div_le_one hc']
      linarith
    obtain ⟨l1, l2⟩ := abs_le.mp (he.trans hb.le)
    have l3 : a < fl (((k + 1 : ℕ) : ℝ) / (c : ℝ)) := by
      have := (abs_lt.mp (he.trans_lt hb)).1
      linarith
    have : ⌈fl (((k + 1 : ℕ) : ℝ) / (c : ℝ))⌉₊ = a + 1 := by
      rw [Nat.ceil_eq_iff (Nat.succ_ne_zero _)]
      refine ⟨by simpa using l3, ?_⟩
      have : ((a.succ : ℕ) : ℝ) = a + 1 := by push_cast; rfl
      rw [this]
      linarith
    rw [this]
    simp

/-- The exact times of the grid, and the computed ones. -/
def exactTime (dt : ℝ) (c : ℕ) (k : ℕ) : ℝ := dt * ∑ m ∈ range k, 2 ^ (m / c)
def compTime (fl : ℝ → ℝ) (dt : ℝ) (c : ℕ) : ℕ → ℝ
  | 0 => 0
  | k + 1 => fl (compTime fl dt c k + fl (2 ^ (k / c) * dt))

theorem exactTime_succ (k : ℕ) : exactTime dt c (k + 1) = exactTime dt c k + 2 ^ (k / c) * dt := by
  unfold exactTime
  rw [sum_range_succ]
  ring

theorem exactTime_nonneg (hdt : 0 < dt) (k : ℕ) : 0 ≤ exactTime dt c k := by unfold exactTime; positivity

theorem exactTime_ge (hdt : 0 < dt) (k : ℕ) : k * dt ≤ exactTime dt c k := by
  induction k with
  | zero => simp [exactTime]
  | succ k ih =>
    rw [exactTime_succ]
    have : (1 : ℝ) ≤ 2 ^ (k / c) := one_le_pow₀ (by norm_num)
    push_cast
    nlinarith

/-- A time of the grid is at most `2c` times the width of the cell that ends there. -/
theorem exactTime_le (hdt : 0 < dt) (hc : 1 ≤ c) (k : ℕ) : exactTime dt c (k + 1) ≤ 2 * c * (2 ^ (k / c) * dt) := by
  have key : ∀ k : ℕ, ∑ m ∈ range (k + 1), (2 : ℝ) ^ (m / c) ≤ (c + (k % c : ℕ) + 1) * 2 ^ (k / c) := by
    intro k
    induction k with
    | zero => simp
    | succ k ih =>
      rw [sum_range_succ]
      have hd := Nat.div_add_mod k c
      have hr := Nat.mod_lt k hc
      have hp : (0 : ℝ) < 2 ^ (k / c) := by positivity
      by_cases hl : k % c + 1 = c
      · have e1 : (k + 1) / c = k / c + 1 := by
          rw [Nat.div_eq_of_lt_le] <;> nlinarith
        have e2 : (k + 1) % c = 0 := by
          have := Nat.div_add_mod (k + 1) c
          rw [e1] at this
          nlinarith
        rw [e1, e2, pow_succ]
        have : ((k % c : ℕ) : ℝ) + 1 = c := by exact_mod_cast hl
        push_cast
        nlinarith
      · have e1 : (k + 1) / c = k / c := by
          have h1 : k / c * c = c * (k / c) := mul_comm _ _
          rw [Nat.div_eq_of_lt_le]
          · omega
          · have : k % c + 1 < c := by omega
            nlinarith
        have e2 : (k + 1) % c = k % c + 1 := by
          have := Nat.div_add_mod (k + 1) c
          rw [e1] at this
          omega
        rw [e1, e2]
        push_cast
        nlinarith
  have hr : ((k % c : ℕ) : ℝ) + 1 ≤ c := by exact_mod_cast Nat.mod_lt k hc
  have hp : (0 : ℝ) < 2 ^ (k / c) := by positivity
  unfold exactTime
  have := key k
  have : ∑ m ∈ range (k + 1), (2 : ℝ) ^ (m / c) ≤ 2 * c * 2 ^ (k / c) := by nlinarith
  nlinarith

/-- Small enough errors. -/
structure Fine (u η dt : ℝ) (c : ℕ) : Prop where
  dt_pos : 0 < dt
  c_pos : 1 ≤ c
  small : 1000 * c * u ≤ 1
  time : 2 * η ≤ u * dt
  unit : 2 * η ≤ u

theorem fl_rel (h : Rounding u η fl) {b x : ℝ} (hb : 2 * η ≤ u * b) (hx : b / 2 ≤ x) (h0 : 0 ≤ x) : |fl x - x| ≤ 2 * u * x := by
  have := h.err x
  rw [abs_of_nonneg h0] at this
  nlinarith [h.u_nonneg]

theorem compTime_error (h : Rounding u η fl) (hf : Fine u η dt c) (k : ℕ) (hk : 8 * (k + 1) * u ≤ 1) : |compTime fl dt c k - exactTime dt c k| ≤ 4 * (k + 1) * u * exactTime dt c k := by
  have hu := h.u_nonneg
  have hdt := hf.dt_pos
  induction k with
  | zero => simp [compTime, exactTime]
  | succ k ih =>
    push_cast at hk
    have ih := ih (by nlinarith)
    have hX := exactTime_nonneg (c := c) hdt k
    have hp : (1 : ℝ) ≤ 2 ^ (k / c) := one_le_pow₀ (by norm_num)
    rw [exactTime_succ]
    show |fl (compTime fl dt c k + fl (2 ^ (k / c) * dt)) - _| ≤ _
    have hP : dt ≤ 2 ^ (k / c) * dt := by nlinarith
    generalize (2 : ℝ) ^ (k / c) * dt = P at *
    have hF := fl_rel h hf.time (by linarith : dt / 2 ≤ P) (by linarith)
    generalize fl P = F at *
    generalize compTime fl dt c k = T at *
    generalize exactTime dt c k = X at *
    obtain ⟨a, ha⟩ : ∃ a, a = 4 * ((k : ℝ) + 1) * u := ⟨_, rfl⟩
    rw [← ha] at ih
    have ha1 : a ≤ 1 / 2 := by rw [ha]; linarith
    have hua : 2 * u ≤ a := by
      rw [ha]
      have : (0 : ℝ) ≤ k * u := by positivity
      nlinarith
    have ha0 : 0 ≤ a := by linarith
    obtain ⟨i1, i2⟩ := abs_le.mp ih
    have hF' : |F - P| ≤ a * P := hF.trans (mul_le_mul_of_nonneg_right hua (by linarith))
    obtain ⟨f1, f2⟩ := abs_le.mp hF'
    have hpos : dt / 2 ≤ T + F := by nlinarith
    have hR := fl_rel h hf.time hpos (by linarith)
    generalize fl (T + F) = R at *
    obtain ⟨r1, r2⟩ := abs_le.mp hR
    have hTF : T + F ≤ (1 + a) * (X + P) := by nlinarith
    have hTF2 : |T + F - (X + P)| ≤ a * (X + P) := by
      rw [show T + F - (X + P) = (T - X) + (F - P) by ring]
      exact (abs_add_le _ _).trans (by linarith)
    have := abs_add_le (R - (T + F)) (T + F - (X + P))
    rw [sub_add_sub_cancel] at this
    have q1 : 2 * u * (T + F) ≤ 4 * u * (X + P) := by
      have : T + F ≤ 2 * (X + P) := by nlinarith
      nlinarith
    have q2 : 4 * (((k + 1 : ℕ) : ℝ) + 1) * u = a + 4 * u := by rw [ha]; push_cast; ring
    rw [q2]
    linarith

/-- Difference of two computed times. -/
theorem diff_error (h : Rounding u η fl) (hf : Fine u η dt c) (k : ℕ) (hk : 8 * (k + 2) * u ≤ 1) :
    |compTime fl dt c (k + 1) - compTime fl dt c k - 2 ^ (k / c) * dt| ≤ 10 * (c * u) * (2 ^ (k / c) * dt) := by
  have hu := h.u_nonneg
  have hdt := hf.dt_pos
  have hc : (1 : ℝ) ≤ c := by exact_mod_cast hf.c_pos
  have hs := hf.small
  have hX := exactTime_nonneg (c := c) hdt k
  have hT := compTime_error h hf k (by nlinarith)
  have hle := exactTime_le (c := c) hdt hf.c_pos k
  rw [exactTime_succ] at hle
  have hp : (1 : ℝ) ≤ 2 ^ (k / c) := one_le_pow₀ (by norm_num)
  show |fl (compTime fl dt c k + fl (2 ^ (k / c) * dt)) - compTime fl dt c k - 2 ^ (k / c) * dt| ≤ _
  generalize (2 : ℝ) ^ (k / c) = p at *
  have hP : dt ≤ p * dt := by nlinarith
  have hF := fl_rel h hf.time (by linarith : dt / 2 ≤ p * dt) (by linarith)
  generalize fl (p * dt) = F at *
  generalize compTime fl dt c k = T at *
  generalize exactTime dt c k = X at *
  have ha1 : 4 * ((k : ℝ) + 1) * u ≤ 1 / 2 := by nlinarith
  have hT' : |T - X| ≤ 1 / 2 * X := hT.trans (mul_le_mul_of_nonneg_right ha1 hX)
  obtain ⟨i1, i2⟩ := abs_le.mp hT'
  obtain ⟨v, hv⟩ : ∃ v, v = c * u := ⟨_, rfl⟩
  rw [← hv]
  have huv : u ≤ v := by rw [hv]; nlinarith
  have hv1 : 1000 * v ≤ 1 := by rw [hv]; linarith
  obtain ⟨f1, f2⟩ := abs_le.mp hF
  have hPpos : 0 ≤ p * dt := by linarith
  have hu1 : 1000 * u ≤ 1 := by linarith
  have hF3 : |F - p * dt| ≤ 1 / 500 * (p * dt) := hF.trans (mul_le_mul_of_nonneg_right (by linarith) hPpos)
  obtain ⟨g1, g2⟩ := abs_le.mp hF3
  have hR := fl_rel h hf.time (by linarith : dt / 2 ≤ T + F) (by linarith)
  generalize fl (T + F) = R at *
  have hTF : T + F ≤ 4 * c * (p * dt) := by linarith
  have := abs_add_le (R - (T + F)) (F - p * dt)
  rw [show R - (T + F) + (F - p * dt) = R - T - p * dt by ring] at this
  have q : 2 * u * (T + F) ≤ 8 * v * (p * dt) := by
    have := mul_le_mul_of_nonneg_left hTF (by linarith : 0 ≤ 2 * u)
    rw [hv]
    linarith
  have q2 : 2 * u * (p * dt) ≤ 2 * v * (p * dt) := by gcongr
  linarith

/-- Width of a computed cell. -/
theorem width_error (h : Rounding u η fl) (hf : Fine u η dt c) (k : ℕ) (hk : 8 * (k + 2) * u ≤ 1) :
    |fl (fl (compTime fl dt c (k + 1) - compTime fl dt c k) / dt) - 2 ^ (k / c)| ≤ 18 * c * u * 2 ^ (k / c) := by
  have hu := h.u_nonneg
  have hdt := hf.dt_pos
  have hc : (1 : ℝ) ≤ c := by exact_mod_cast hf.c_pos
  have hs := hf.small
  have d1 := diff_error h hf k hk
  have hp : (1 : ℝ) ≤ 2 ^ (k / c) := one_le_pow₀ (by norm_num)
  obtain ⟨D, hD⟩ : ∃ D, D = compTime fl dt c (k + 1) - compTime fl dt c k := ⟨_, rfl⟩
  rw [← hD] at d1 ⊢
  generalize (2 : ℝ) ^ (k / c) = p at *
  have hP : dt ≤ p * dt := by nlinarith
  obtain ⟨v, hv⟩ : ∃ v, v = c * u := ⟨_, rfl⟩
  rw [← hv] at d1
  have huv : u ≤ v := by rw [hv]; nlinarith
  have hv1 : 1000 * v ≤ 1 := by rw [hv]; linarith
  have hPpos : 0 ≤ p * dt := by linarith
  have d2 : |D - p * dt| ≤ 1 / 100 * (p * dt) := d1.trans (mul_le_mul_of_nonneg_right (by linarith) hPpos)
  obtain ⟨b1, b2⟩ := abs_le.mp d2
  have hfD := fl_rel h hf.time (by linarith : dt / 2 ≤ D) (by linarith)
  generalize fl D = D' at *
  have d3 : |D' - p * dt| ≤ 14 * v * (p * dt) := by
    have := abs_add_le (D' - D) (D - p * dt)
    rw [sub_add_sub_cancel] at this
    have q : 2 * u * D ≤ 4 * v * (p * dt) := by
      have : u * D ≤ v * D := mul_le_mul_of_nonneg_right huv (by linarith)
      have : v * D ≤ v * (2 * (p * dt)) := mul_le_mul_of_nonneg_left (by linarith) (by linarith)
      linarith
    linarith
  have d4 : |D' / dt - p| ≤ 14 * v * p := by
    rw [show D' / dt - p = (D' - p * dt) / dt by field_simp, abs_div, abs_of_pos hdt, div_le_iff₀ hdt]
    linarith
  have hp0 : 0 ≤ p := by linarith
  have d5 : |D' / dt - p| ≤ 14 / 1000 * p := d4.trans (mul_le_mul_of_nonneg_right (by linarith) hp0)
  obtain ⟨w1, w2⟩ := abs_le.mp d5
  have hfw := fl_rel h (b := 1) (by linarith [hf.unit]) (by linarith : (1 : ℝ) / 2 ≤ D' / dt) (by linarith)
  generalize D' / dt = x at *
  generalize fl x = x' at *
  have := abs_add_le (x' - x) (x - p)
  rw [sub_add_sub_cancel] at this
  have q : 2 * u * x ≤ 4 * v * p := by
    have : u * x ≤ v * x := mul_le_mul_of_nonneg_right huv (by linarith)
    have : v * x ≤ v * (2 * p) := mul_le_mul_of_nonneg_left (by linarith) (by linarith)
    linarith
  have : 18 * c * u * p = 18 * v * p := by rw [hv]; ring
  linarith

/-- The entries of the shift matrix. -/
theorem entries_error (h : Rounding u η fl) (hf : Fine u η dt c) {W p : ℝ} (hp : 1 ≤ p) (hW : |W - p| ≤ 18 * c * u * p) :
    |fl (1 / W) - 1 / p| ≤ 23 * c * u ∧ |fl (1 - fl (1 / W)) - (1 - 1 / p)| ≤ 23 * c * u := by
  have hu := h.u_nonneg
  have hη := h.η_nonneg
  have hc : (1 : ℝ) ≤ c := by exact_mod_cast hf.c_pos
  obtain ⟨v, hv⟩ : ∃ v, v = c * u := ⟨_, rfl⟩
  have huv : u ≤ v := by rw [hv]; nlinarith
  have hv1 : 1000 * v ≤ 1 := by rw [hv]; linarith [hf.small]
  rw [show 18 * c * u * p = 18 * v * p by rw [hv]; ring] at hW
  rw [show 23 * c * u = 23 * v by rw [hv]; ring]
  have hp0 : 0 < p := by linarith
  have hW2 : |W - p| ≤ 18 / 1000 * p := hW.trans (mul_le_mul_of_nonneg_right (by linarith) hp0.le)
  obtain ⟨w1, w2⟩ := abs_le.mp hW2
  have hWp : 982 / 1000 * p ≤ W := by linarith
  have hW0 : 0 < W := by linarith
  have e1 : |1 / W - 1 / p| ≤ 19 * v := by
    rw [show 1 / W - 1 / p = (p - W) / (W * p) by field_simp, abs_div, abs_of_pos (mul_pos hW0 hp0), div_le_iff₀ (mul_pos hW0 hp0), abs_sub_comm]
    have : 18 * v * p ≤ 19 * v * (W * p) := by
      have hv0 : 0 ≤ v := by linarith
      have : 18 ≤ 19 * W := by linarith
      have : v * p * 18 ≤ v * p * (19 * W) := mul_le_mul_of_nonneg_left this (by positivity)
      linarith
    linarith
  have hinv : 1 / p ≤ 1 := by rw [div_le_one hp0]; exact hp
  have hinv0 : 0 ≤ 1 / p := by positivity
  have hW1 : 0 ≤ 1 / W := by positivity
  generalize 1 / W = x at *
  generalize 1 / p = y at *
  obtain ⟨x1, x2⟩ := abs_le.mp e1
  have r1 := h.err x
  rw [abs_of_nonneg hW1] at r1
  have hu1 : u ≤ 1 / 1000 := by linarith
  have hη1 := hf.unit
  have r2 : |fl x - x| ≤ 2 * u := r1.trans (by nlinarith)
  generalize fl x = x' at *
  have e2 : |x' - y| ≤ 21 * v := by
    have := abs_add_le (x' - x) (x - y)
    rw [sub_add_sub_cancel] at this
    linarith
  obtain ⟨y1, y2⟩ := abs_le.mp e2
  have r3 := h.err (1 - x')
  have hab : |1 - x'| ≤ 3 / 2 := abs_le.mpr ⟨by linarith, by linarith⟩
  have r4 : |fl (1 - x') - (1 - x')| ≤ 2 * u := r3.trans (by nlinarith)
  refine ⟨by linarith, ?_⟩
  have := abs_add_le (fl (1 - x') - (1 - x')) (y - x')
  rw [show fl (1 - x') - (1 - x') + (y - x') = fl (1 - x') - (1 - y) by ring, abs_sub_comm y x'] at this
  linarith

/-! ### The loop -/

theorem body_iterate (h : Rounding u η fl) (hf : Fine u η dt c) (k : ℕ) (hk : 8 * (k + 1) * u ≤ 1) :
    (cjBody fl dt c)^[k] Util.cjInit = ⟨compTime fl dt c k, k, (List.range k).map fun m => compTime fl dt c (m + 1)⟩ := by
  have hu := h.u_nonneg
  induction k with
  | zero => simp [Util.cjInit, compTime]
  | succ k ih =>
    push_cast at hk
    rw [Function.iterate_succ_apply', ih (by nlinarith)]
    have hη := hf.unit
    have hs := hf.small
    have hc : (1 : ℝ) ≤ c := by exact_mod_cast hf.c_pos
    have e := ceil_fl h hf.c_pos k (by
      have : c * η ≤ c * (u / 2) := mul_le_mul_of_nonneg_left (by linarith) (by linarith)
      nlinarith)
    unfold cjBody
    dsimp only
    rw [e, List.range_succ, List.map_append]
    rfl

end Verif.LoadAgg.Rnd
