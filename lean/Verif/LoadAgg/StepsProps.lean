import Verif.Bore.FloatDupLemmas
import Verif.LoadAgg.StepsModel
import Verif.LoadAgg.TimesProps

/-!
# Property C156: number of time steps of the load aggregation schemes with floating-point numbers

The number of time steps allocated by the MLAA and Liu schemes is the rounded-up rounded quotient
`tmax/dt`.  It is never too small for a simulation whose time steps fit exactly in `tmax`, nor for
the maximum time `n*dt` computed in floating point; it may be one step too large then.
-/

noncomputable section

namespace Verif.LoadAgg

open Verif.Num

/-- Rounding is monotone with respect to the integers of the format. -/
theorem binary64_le_nat {x : ℝ} {n : ℕ} (h0 : 0 ≤ x) (hn : n ≤ 2 ^ 53) (h : x ≤ n) : binary64 x ≤ n := by
  rcases h.eq_or_lt with rfl | hlt
  · exact (Verif.Bore.fl_int (m := n) (by rw [abs_of_nonneg (by positivity)]; exact_mod_cast hn)).le
  rcases h0.eq_or_lt with rfl | hpos
  · have := binary64_rounding.zero
    rw [this]; positivity
  have hL : lastDigit x ≤ 0 := by
    unfold lastDigit
    refine max_le ?_ (by norm_num)
    have h1 : Int.log 2 |x| < 53 := by
      rw [abs_of_pos hpos]
      refine (Int.lt_zpow_iff_log_lt (by norm_num) hpos).mp ?_
      refine hlt.trans_le ?_
      have : (n : ℝ) ≤ ((2 ^ 53 : ℕ) : ℝ) := by exact_mod_cast hn
      refine this.trans (le_of_eq ?_)
      norm_num
    omega
  obtain ⟨k, hk⟩ : ∃ k : ℕ, lastDigit x = -(k : ℤ) := ⟨(-lastDigit x).toNat, by omega⟩
  have hp := pow_last_pos x
  have h1 : x / 2 ^ lastDigit x ≤ ((n * 2 ^ k : ℕ) : ℝ) := by
    rw [div_le_iff₀ hp, hk, zpow_neg, zpow_natCast]
    push_cast
    rw [mul_assoc, mul_inv_cancel₀ (by positivity), mul_one]
    exact h
  have h2 := nearestEven_le (n := n * 2 ^ k) (x := x / 2 ^ lastDigit x) (by
    rw [abs_of_nonneg (by positivity)]; exact h1)
  have h3 : (nearestEven (x / 2 ^ lastDigit x) : ℝ) ≤ ((n * 2 ^ k : ℕ) : ℝ) := by
    exact_mod_cast (le_abs_self _).trans h2
  unfold binary64
  calc _ ≤ ((n * 2 ^ k : ℕ) : ℝ) * 2 ^ lastDigit x := mul_le_mul_of_nonneg_right h3 hp.le
    _ = n := by
      rw [hk, zpow_neg, zpow_natCast]
      push_cast
      rw [mul_assoc, mul_inv_cancel₀ (by positivity), mul_one]

theorem binary64_ge_nat {x : ℝ} {n : ℕ} (hn : n ≤ 2 ^ 53) (h : (n : ℝ) ≤ x) : (n : ℝ) ≤ binary64 x := by
  rcases Nat.eq_zero_or_pos n with rfl | h0
  · simpa using Verif.Bore.fl_nonneg (by simpa using h)
  · refine Verif.Bore.binary64_ge ?_ (by exact_mod_cast h0) h
    exact_mod_cast Verif.Bore.fl_int (m := n) (by rw [abs_of_nonneg (by positivity)]; exact_mod_cast hn)

/-- **C156** (room).  Any number of time steps that fits exactly in `tmax` is allocated, and no
more time steps than any number that exceeds `tmax`. -/
theorem steps_rounded {dt tmax : ℝ} (hdt : 0 < dt) (ht : 0 ≤ tmax) (n : ℕ) (hn : n ≤ 2 ^ 53) :
    (n * dt ≤ tmax → n ≤ numStepsFl binary64 dt tmax) ∧ (tmax ≤ n * dt → numStepsFl binary64 dt tmax ≤ n) := by
  constructor
  · intro h
    have h1 : (n : ℝ) ≤ tmax / dt := (le_div_iff₀ hdt).mpr h
    have h2 := (binary64_ge_nat hn h1).trans (Nat.le_ceil _)
    exact_mod_cast h2
  · intro h
    exact Nat.ceil_le.mpr (binary64_le_nat (by positivity) hn ((div_le_iff₀ hdt).mpr h))

/-- **C156** (against the exact number).  At most one time step is missing, and the last one
reaches `tmax` up to two units in the last place. -/
theorem steps_near {dt tmax : ℝ} (hdt : 0 < dt) (ht : dt ≤ tmax) (hN : tmax ≤ 2 ^ 53 * dt) :
    numStepsFl binary64 dt tmax ≤ numSteps dt tmax ∧ numSteps dt tmax ≤ numStepsFl binary64 dt tmax + 1 ∧
      tmax ≤ (1 + 2 ^ (-52 : ℤ)) * (numStepsFl binary64 dt tmax * dt) := by
  have h0 : 0 < tmax := hdt.trans_le ht
  have hy0 : 1 ≤ tmax / dt := (one_le_div hdt).mpr ht
  have hc1 : tmax / dt ≤ numSteps dt tmax := Nat.le_ceil _
  have hc2 : (numSteps dt tmax : ℝ) < tmax / dt + 1 := Nat.ceil_lt_add_one (by positivity)
  have hN' : numSteps dt tmax ≤ 2 ^ 53 := by
    refine Nat.ceil_le.mpr ?_
    rw [div_le_iff₀ hdt]
    refine hN.trans (le_of_eq ?_)
    norm_num
  refine ⟨(steps_rounded hdt h0.le _ hN').2 ((div_le_iff₀ hdt).mp hc1), ?_, ?_⟩
  · obtain ⟨m, hm⟩ : ∃ m, numSteps dt tmax = m + 1 := by
      refine ⟨numSteps dt tmax - 1, ?_⟩
      have : 0 < numSteps dt tmax := Nat.ceil_pos.mpr (by linarith)
      omega
    rw [hm]
    have : m ≤ numStepsFl binary64 dt tmax := by
      refine (steps_rounded hdt h0.le m (by omega)).1 ?_
      rw [hm] at hc2
      push_cast at hc2
      rw [← le_div_iff₀ hdt]
      linarith
    omega
  · have h1 := (Verif.Bore.fl_bounds_nonneg (x := tmax / dt) (by positivity)).2
    have h2 : binary64 (tmax / dt) ≤ numStepsFl binary64 dt tmax := Nat.le_ceil _
    have h3 : (2 : ℝ) ^ (-1075 : ℤ) ≤ 2 ^ (-53 : ℤ) * 2 ^ (-10 : ℤ) := by
      rw [← zpow_add₀ (by norm_num)]
      exact zpow_le_zpow_right₀ (by norm_num) (by norm_num)
    have h4 : tmax / dt ≤ (1 + 2 ^ (-52 : ℤ)) * numStepsFl binary64 dt tmax := by
      have e : (2 : ℝ) ^ (-52 : ℤ) = 2 * 2 ^ (-53 : ℤ) := by norm_num
      have hu : (2 : ℝ) ^ (-53 : ℤ) ≤ 1 / 8 := by norm_num
      have hu0 : (0 : ℝ) < 2 ^ (-53 : ℤ) := by positivity
      have hten : (2 : ℝ) ^ (-10 : ℤ) ≤ 1 / 8 := by norm_num
      rw [e]
      generalize (2 : ℝ) ^ (-53 : ℤ) = u at *
      generalize (2 : ℝ) ^ (-10 : ℤ) = w at *
      generalize (2 : ℝ) ^ (-1075 : ℤ) = η at *
      generalize tmax / dt = y at *
      generalize (numStepsFl binary64 dt tmax : ℝ) = N at *
      have a1 : (1 - u) * y ≤ N + u / 8 := by nlinarith
      have a2 : (1 + 2 * u) * ((1 - u) * y) ≤ (1 + 2 * u) * (N + u / 8) := mul_le_mul_of_nonneg_left a1 (by linarith)
      nlinarith [mul_nonneg hu0.le (sub_nonneg.mpr hu), mul_nonneg hu0.le (sub_nonneg.mpr hy0), mul_nonneg (mul_nonneg hu0.le (sub_nonneg.mpr hu)) (sub_nonneg.mpr hy0)]
    rw [div_le_iff₀ hdt] at h4
    linarith

/-- **C156** (maximum time computed as `n*dt`).  All of the `n` time steps are allocated, and at
most one more. -/
theorem steps_of_product {dt : ℝ} (hdt : 2 ^ (-400 : ℤ) ≤ dt) (n : ℕ) (hn : n ≤ 2 ^ 50) :
    n ≤ numStepsFl binary64 dt (binary64 (n * dt)) ∧ numStepsFl binary64 dt (binary64 (n * dt)) ≤ n + 1 := by
  have hd0 : 0 < dt := lt_of_lt_of_le (by positivity) hdt
  obtain ⟨x, hx⟩ : ∃ x, x = binary64 (n * dt) := ⟨_, rfl⟩
  rw [← hx]
  have herr := binary64_rounding.err (n * dt)
  rw [← hx, abs_of_nonneg (by positivity : (0 : ℝ) ≤ n * dt)] at herr
  have hη : (2 : ℝ) ^ (-1075 : ℤ) ≤ 2 ^ (-53 : ℤ) * dt := by
    calc (2 : ℝ) ^ (-1075 : ℤ) ≤ 2 ^ (-53 : ℤ) * 2 ^ (-400 : ℤ) := by
          rw [← zpow_add₀ (by norm_num)]
          exact zpow_le_zpow_right₀ (by norm_num) (by norm_num)
      _ ≤ _ := mul_le_mul_of_nonneg_left hdt (by positivity)
  have hnR : (n : ℝ) ≤ 2 ^ 50 := by exact_mod_cast hn
  have hq : |x / dt - n| ≤ 1 / 4 := by
    have e : x / dt - n = (x - n * dt) / dt := by field_simp
    rw [e, abs_div, abs_of_pos hd0, div_le_iff₀ hd0]
    refine herr.trans ?_
    have hu : (2 : ℝ) ^ (-53 : ℤ) * (2 ^ 50 + 1) ≤ 1 / 4 := by norm_num
    have hu0 : (0 : ℝ) < 2 ^ (-53 : ℤ) := by positivity
    have : (2 : ℝ) ^ (-53 : ℤ) * (n * dt) + 2 ^ (-53 : ℤ) * dt = (2 : ℝ) ^ (-53 : ℤ) * (n + 1) * dt := by ring
    have h2 : (2 : ℝ) ^ (-53 : ℤ) * (n + 1) ≤ 1 / 4 := (mul_le_mul_of_nonneg_left (by linarith) hu0.le).trans hu
    calc _ ≤ (2 : ℝ) ^ (-53 : ℤ) * (n * dt) + 2 ^ (-53 : ℤ) * dt := by linarith
      _ = _ := this
      _ ≤ _ := mul_le_mul_of_nonneg_right h2 hd0.le
  obtain ⟨hq1, hq2⟩ := abs_le.mp hq
  rcases Nat.eq_zero_or_pos n with rfl | hpos
  · refine ⟨Nat.zero_le _, ?_⟩
    have hx0 : x = 0 := by rw [hx]; simpa using binary64_rounding.zero
    have : numStepsFl binary64 dt x = 0 := by simp [numStepsFl, hx0, binary64_rounding.zero]
    omega
  have h1n : (1 : ℝ) ≤ n := by exact_mod_cast hpos
  have hy0 : 0 ≤ x / dt := by linarith
  constructor
  · have hf : IsFloat binary64 ((n : ℝ) - 1 / 2) := by
      have := Verif.Bore.fl_half (m := 2 * n - 1) (by
        rw [abs_of_nonneg (by omega)]
        have : (n : ℤ) ≤ 2 ^ 50 := by exact_mod_cast hn
        omega)
      have e : (((2 * n - 1 : ℤ) : ℝ)) / 2 = n - 1 / 2 := by push_cast; ring
      rwa [e] at this
    have h := Verif.Bore.binary64_ge hf (by linarith) (by linarith : (n : ℝ) - 1 / 2 ≤ x / dt)
    have h2 : (n : ℝ) - 1 < ((numStepsFl binary64 dt x : ℕ) : ℝ) := by
      have := Nat.le_ceil (binary64 (x / dt))
      unfold numStepsFl
      linarith
    have h3 : (n : ℝ) < ((numStepsFl binary64 dt x + 1 : ℕ) : ℝ) := by push_cast; linarith
    have h4 : n < numStepsFl binary64 dt x + 1 := by exact_mod_cast h3
    omega
  · refine Nat.ceil_le.mpr (binary64_le_nat hy0 (by omega) ?_)
    push_cast
    linarith

/-- **C156** (exact product).  If `n*dt` needs no rounding, for example for whole seconds, exactly
`n` time steps are allocated. -/
theorem steps_exact {dt : ℝ} (hdt : 0 < dt) (n : ℕ) (hn : n ≤ 2 ^ 53) (hf : IsFloat binary64 (n * dt)) :
    numStepsFl binary64 dt (binary64 (n * dt)) = n := by
  have hf' : binary64 (n * dt) = n * dt := hf
  rw [hf']
  obtain ⟨h1, h2⟩ := steps_rounded hdt (by positivity : 0 ≤ n * dt) n hn
  exact le_antisymm (h2 le_rfl) (h1 le_rfl)

/-- The number of large cells allocated by `Liu` is the exact one. -/
theorem liuFl_ok (dt tmax : ℝ) (N1 N2 N3 W1 W2 W3 : ℕ) (h : 0 < N1 * N2 * N3)
    (hBig : N1 * N2 * N3 ≤ 2 ^ 900) (hN : numStepsFl binary64 dt tmax ≤ 2 ^ 52) :
    (liuFl binary64 dt tmax N1 N2 N3 W1 W2 W3).N4Ok (numStepsFl binary64 dt tmax) := by
  show ⌈binary64 (((numStepsFl binary64 dt tmax : ℕ) : ℝ) / ((N1 * N2 * N3 : ℕ) : ℝ))⌉₊ = _
  generalize numStepsFl binary64 dt tmax = a at *
  show _ = (a + (N1 * N2 * N3 - 1)) / (N1 * N2 * N3)
  generalize N1 * N2 * N3 = B at h hBig ⊢
  have hBig' : (B : ℝ) ≤ 2 ^ (900 : ℤ) := by
    have := Nat.cast_le (α := ℝ) |>.mpr hBig
    rwa [Nat.cast_pow, ← zpow_natCast] at this
  clear hBig
  have hB : (0 : ℝ) < (B : ℝ) := by exact_mod_cast h
  have hdm := Nat.div_add_mod (a + (B - 1)) B
  have hml := Nat.mod_lt (a + (B - 1)) h
  obtain ⟨m, hm⟩ : ∃ m, m = (a + (B - 1)) / B := ⟨_, rfl⟩
  rw [← hm] at hdm ⊢
  have hup : a ≤ m * B := by rw [Nat.mul_comm]; omega
  have hma : m ≤ a := by
    rw [hm]
    rcases Nat.eq_zero_or_pos a with rfl | ha
    · rw [Nat.zero_add, Nat.div_eq_of_lt (by omega)]
    · rw [← Nat.lt_add_one_iff, Nat.div_lt_iff_lt_mul h]
      have : a * 1 ≤ a * B := Nat.mul_le_mul_left _ h
      rw [Nat.add_mul]
      omega
  refine le_antisymm (Nat.ceil_le.mpr (binary64_le_nat (by positivity) (by omega) ?_)) ?_
  · rw [div_le_iff₀ hB]; exact_mod_cast hup
  · rcases Nat.eq_zero_or_pos m with h0 | hpos
    · omega
    obtain ⟨k, rfl⟩ : ∃ k, m = k + 1 := ⟨m - 1, by omega⟩
    have hlow : k * B + 1 ≤ a := by
      have : B * (k + 1) = k * B + B := by ring
      omega
    have h1 := (Verif.Bore.fl_bounds_nonneg (x := (a : ℝ) / B) (by positivity)).2
    have hk : (k : ℝ) < binary64 ((a : ℝ) / B) := by
      have hu : (2 : ℝ) ^ (-53 : ℤ) * a ≤ 1 / 2 := by
        have : (a : ℝ) ≤ 2 ^ 52 := by exact_mod_cast hN
        calc _ ≤ (2 : ℝ) ^ (-53 : ℤ) * 2 ^ 52 := mul_le_mul_of_nonneg_left this (by positivity)
          _ = 1 / 2 := by norm_num
      have hη : (2 : ℝ) ^ (-1075 : ℤ) * B < 1 / 2 := by
        calc _ ≤ (2 : ℝ) ^ (-1075 : ℤ) * 2 ^ (900 : ℤ) := mul_le_mul_of_nonneg_left hBig' (by positivity)
          _ = 2 ^ (-175 : ℤ) := by rw [← zpow_add₀ (by norm_num)]; norm_num
          _ < 1 / 2 := by norm_num
      have hlow' : (k : ℝ) * B + 1 ≤ a := by exact_mod_cast hlow
      generalize (2 : ℝ) ^ (-53 : ℤ) = u at *
      generalize (2 : ℝ) ^ (-1075 : ℤ) = η at *
      have h5 : (k : ℝ) < (1 - u) * (a / B) - η := by
        have e : (1 - u) * (a / B) - η = (a - u * a - η * B) / B := by field_simp
        rw [e, lt_div_iff₀ hB]
        linarith
      linarith
    have h3 : (k : ℝ) < (⌈binary64 ((a : ℝ) / B)⌉₊ : ℝ) := hk.trans_le (Nat.le_ceil _)
    have h4 : k < ⌈binary64 ((a : ℝ) / B)⌉₊ := by exact_mod_cast h3
    omega

/-- **C156** (MLAA).  A simulation of `n` time steps with the maximum time `n*dt` runs without
error; with two time steps more it is refused. -/
theorem mlaa_rounded {S : Type*} {dt : ℝ} (hdt : 2 ^ (-400 : ℤ) ≤ dt) (N0 N1 N2 N3 n : ℕ) (hn : n ≤ 2 ^ 50) (h0 : 1 ≤ N0)
    (ops : List (Op ℝ S)) (hp : Proper ops) :
    ((hist ops).length ≤ n → (MLAA.run (mlaaFl binary64 dt (binary64 (n * dt)) N0 N1 N2 N3) ops).isSome) ∧
    (n + 2 ≤ (hist ops).length → MLAA.run (mlaaFl binary64 dt (binary64 (n * dt)) N0 N1 N2 N3) ops = none) := by
  obtain ⟨h1, h2⟩ := steps_of_product hdt n hn
  have h := MLAA.mlaa_run_isSome_iff (mlaaFl binary64 dt (binary64 (n * dt)) N0 N1 N2 N3) h0 ops hp
  refine ⟨fun hl => h.mpr (hl.trans h1), fun hl => ?_⟩
  rw [← Option.not_isSome_iff_eq_none, h]
  show ¬ _ ≤ numStepsFl binary64 dt (binary64 (n * dt))
  omega

/-- **C156** (Liu).  The same for the Liu scheme: the loads are kept in cells of the announced sizes. -/
theorem liu_rounded {S : Type*} {dt : ℝ} (hdt : 2 ^ (-400 : ℤ) ≤ dt) (N1 N2 N3 W1 W2 W3 n : ℕ) (hn : n ≤ 2 ^ 50)
    (hN : 1 ≤ N1 ∧ 1 ≤ N2 ∧ 1 ≤ N3) (hW : 1 ≤ W1 ∧ 1 ≤ W2 ∧ 1 ≤ W3) (hBig : N1 * N2 * N3 ≤ 2 ^ 900)
    (ops : List (Op ℝ S)) (hp : Proper ops) (hl : (hist ops).length ≤ n) :
    ∃ σ, Liu.run (liuFl binary64 dt (binary64 (n * dt)) N1 N2 N3 W1 W2 W3) ops = some σ ∧
      (Liu.sizes (liuFl binary64 dt (binary64 (n * dt)) N1 N2 N3 W1 W2 W3) σ).sum = (hist ops).length := by
  obtain ⟨h1, h2⟩ := steps_of_product hdt n hn
  have h4 := liuFl_ok dt (binary64 (n * dt)) N1 N2 N3 W1 W2 W3 (Nat.mul_pos (Nat.mul_pos hN.1 hN.2.1) hN.2.2) hBig (by omega)
  obtain ⟨σ, hr, hs, -⟩ := Liu.liu_partition _ _ ⟨hN.1, hN.2.1, hN.2.2, hW.1, hW.2.1, hW.2.2⟩ h4 ops hp (hl.trans h1)
  exact ⟨σ, hr, hs⟩

/-- **C156** (times).  The required times are the multiples of `dt`, each correctly rounded, and
the maximum time `n*dt` is among them. -/
theorem times_rounded {dt : ℝ} (hdt : 2 ^ (-400 : ℤ) ≤ dt) (n : ℕ) (h0 : 0 < n) (hn : n ≤ 2 ^ 50) :
    (∀ i < n, (timesFl binary64 dt (binary64 (n * dt)))[i]? = some (binary64 ((i + 1 : ℕ) * dt))) ∧
      (timesFl binary64 dt (binary64 (n * dt)))[n - 1]? = some (binary64 (n * dt)) ∧
      ((timesFl binary64 dt (binary64 (n * dt))).length = n ∨ (timesFl binary64 dt (binary64 (n * dt))).length = n + 1) := by
  obtain ⟨h1, h2⟩ := steps_of_product hdt n hn
  have hg : ∀ i < n, (timesFl binary64 dt (binary64 (n * dt)))[i]? = some (binary64 ((i + 1 : ℕ) * dt)) := by
    intro i hi
    simp [timesFl, List.getElem?_range (lt_of_lt_of_le hi h1)]
  refine ⟨hg, ?_, ?_⟩
  · rw [hg (n - 1) (by omega), Nat.sub_add_cancel h0]
  · simp only [timesFl, List.length_map, List.length_range]
    omega

/-- The number `0.3` in floating point. -/
def threeTenths : ℝ := 5404319552844595 * 2 ^ (-54 : ℤ)

theorem threeTenths_float : IsFloat binary64 threeTenths := by
  have := binary64_exact 5404319552844595 (-54) (by norm_num) (by norm_num)
  exact_mod_cast this

/-- Rounding a number in the binade `[2^e, 2^(e+1))`. -/
theorem binary64_binade {x : ℝ} (e : ℤ) (k : ℤ) (he : -1022 ≤ e) (h1 : 2 ^ e ≤ x) (h2 : x < 2 ^ (e + 1))
    (hk : |x - k * 2 ^ (e - 52)| < 2 ^ (e - 53)) : binary64 x = k * 2 ^ (e - 52) := by
  have hx : 0 < x := lt_of_lt_of_le (by positivity) h1
  have hlog : Int.log 2 |x| = e := by
    rw [abs_of_pos hx]
    refine le_antisymm ?_ ?_
    · have := (Int.lt_zpow_iff_log_lt (R := ℝ) (b := 2) (by norm_num) hx (x := e + 1)).mp (by simpa using h2)
      omega
    · exact (Int.zpow_le_iff_le_log (R := ℝ) (b := 2) (by norm_num) hx).mp (by simpa using h1)
  have hL : lastDigit x = e - 52 := by
    unfold lastDigit
    rw [hlog]
    omega
  unfold binary64
  rw [hL]
  have hp : (0 : ℝ) < 2 ^ (e - 52) := by positivity
  have hhalf : (2 : ℝ) ^ (e - 53) = 1 / 2 * 2 ^ (e - 52) := by
    rw [show e - 53 = -1 + (e - 52) by ring, zpow_add₀ (by norm_num)]
    norm_num
  have hd : |x / 2 ^ (e - 52) - k| < 1 / 2 := by
    have e1 : x / 2 ^ (e - 52) - k = (x - k * 2 ^ (e - 52)) / 2 ^ (e - 52) := by field_simp
    rw [e1, abs_div, abs_of_pos hp, div_lt_iff₀ hp, ← hhalf]
    exact hk
  have hn := nearestEven_near (x / 2 ^ (e - 52))
  have h3 : |(nearestEven (x / 2 ^ (e - 52)) : ℝ) - k| < 1 := by
    have := abs_sub_le (nearestEven (x / 2 ^ (e - 52)) : ℝ) (x / 2 ^ (e - 52)) k
    linarith
  have h4 : |nearestEven (x / 2 ^ (e - 52)) - k| < 1 := by exact_mod_cast h3
  have h5 : nearestEven (x / 2 ^ (e - 52)) = k := by
    rw [Int.abs_lt_one_iff] at h4
    omega
  rw [h5]

theorem threeTenths_eq : binary64 (3 / 10) = threeTenths := by
  have := binary64_binade (x := 3 / 10) (-2) 5404319552844595 (by norm_num) (by norm_num) (by norm_num) (by rw [abs_lt]; norm_num)
  rw [this]
  unfold threeTenths
  norm_num

/-- **C156** (one step too many).  With the time step `0.3` and the maximum time of seven time
steps, eight time steps are allocated and eight response factors required. -/
theorem steps_one_more : numStepsFl binary64 (binary64 (3 / 10)) (binary64 ((7 : ℕ) * binary64 (3 / 10))) = 8 := by
  rw [threeTenths_eq]
  have h1 : binary64 ((7 : ℕ) * threeTenths) = ((4728779608739021 : ℤ) : ℝ) * 2 ^ ((1 : ℤ) - 52) := by
    refine binary64_binade 1 4728779608739021 (by norm_num) ?_ ?_ ?_ <;> unfold threeTenths <;> norm_num [abs_lt]
  rw [h1]
  have h2 : binary64 ((((4728779608739021 : ℤ) : ℝ) * 2 ^ ((1 : ℤ) - 52)) / threeTenths) = ((7881299347898369 : ℤ) : ℝ) * 2 ^ ((2 : ℤ) - 52) := by
    refine binary64_binade 2 7881299347898369 (by norm_num) ?_ ?_ ?_ <;> unfold threeTenths <;> norm_num [abs_lt]
  unfold numStepsFl
  rw [h2, Nat.ceil_eq_iff (by norm_num)]
  constructor <;> norm_num

/-- Example: an hour (in seconds) and ten years of time steps satisfy the hypotheses, and the number of steps is exact. -/
example : (2 : ℝ) ^ (-400 : ℤ) ≤ 3600 ∧ 87600 ≤ 2 ^ 50 ∧ numStepsFl binary64 3600 (binary64 ((87600 : ℕ) * 3600)) = 87600 := by
  refine ⟨(zpow_le_one_of_nonpos₀ (by norm_num) (by norm_num)).trans (by norm_num), by norm_num, ?_⟩
  have h1 : binary64 ((87600 : ℕ) * (3600 : ℝ)) = 315360000 := by
    have := Verif.Bore.fl_int (m := 315360000) (by norm_num)
    rw [show ((87600 : ℕ) : ℝ) * 3600 = ((315360000 : ℤ) : ℝ) by norm_num, this]
    norm_num
  have h2 : binary64 ((315360000 : ℝ) / 3600) = 87600 := by
    have := Verif.Bore.fl_int (m := 87600) (by norm_num)
    rw [show (315360000 : ℝ) / 3600 = ((87600 : ℤ) : ℝ) by norm_num, this]
    norm_num
  unfold numStepsFl
  rw [h1, h2]
  norm_num

/-- Example: a history of one load, the cells of the Liu scheme of the examples in the code. -/
example : Proper [.next, .set fun _ : Unit => (3 : ℝ)] ∧ (hist [.next, .set fun _ : Unit => (3 : ℝ)]).length ≤ 7 ∧ 12 * 20 * 20 ≤ 2 ^ 900 := by
  refine ⟨trivial, by simp [hist, histStep], ?_⟩
  exact (by norm_num : 12 * 20 * 20 ≤ 2 ^ 20).trans (Nat.pow_le_pow_right (by norm_num) (by norm_num))

end Verif.LoadAgg
