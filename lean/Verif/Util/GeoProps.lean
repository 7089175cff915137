import Verif.Util.GeoLemmas

/-!
# Property C10: geometric time grid
-/

namespace Verif.Util

open Finset

/-- **C10** (uniform branch).  If `Nt` uniform steps reach `tmax` the times are the multiples
of `dt`, strictly increasing, and the last one reaches `tmax`. -/
theorem time_geometric_uniform (dt tmax : ℝ) (hdt : 0 < dt) (Nt : ℕ) (hN : 1 ≤ Nt)
    (hle : tmax ≤ Nt * dt) (time : List ℝ) (h : TimeGeometric dt tmax Nt time) :
    time.length = Nt ∧ (∀ k (hk : k < time.length), time[k] = (k + 1 : ℕ) * dt) ∧
      time.Pairwise (· < ·) ∧ ∀ t ∈ time.getLast?, tmax ≤ t := by
  rw [TimeGeometric, if_neg (not_lt.mpr hle)] at h
  subst h
  refine ⟨by simp, ?_, ?_, ?_⟩
  · intro k hk
    simp; ring
  · rw [List.pairwise_iff_getElem]
    intro i j hi hj hij
    simp only [List.getElem_map, List.getElem_range]
    have : (i : ℝ) < j := by exact_mod_cast hij
    nlinarith
  · intro t ht
    obtain ⟨n, rfl⟩ := Nat.exists_eq_succ_of_ne_zero (by omega : Nt ≠ 0)
    rw [Nat.succ_eq_add_one, List.range_succ, List.map_append] at ht
    simp at ht
    rw [← ht]
    push_cast at hle
    linarith

theorem div_gt {dt tmax : ℝ} {N : ℕ} (hdt : 0 < dt) (hT : (N : ℝ) * dt < tmax) :
    (N : ℝ) < tmax / dt := by
  rw [lt_div_iff₀ hdt]; exact hT

theorem geoTimes_get {dt tmax : ℝ} {N : ℕ} {r : ℝ} (hr : 1 < r) (k : ℕ) (hk : k < N) :
    (geoTimes dt tmax N r)[k]'(by simp [geoTimes, hk]) = if k = N - 1 then tmax else dt * gs (k + 1) r := by
  simp only [geoTimes, List.getElem_set]
  by_cases h : N - 1 = k
  · simp [h]
  · rw [if_neg h, if_neg (Ne.symm h)]
    simp only [List.getElem_map, List.getElem_range]
    have h1 : (1 - r) ≠ 0 := by linarith
    have := gs_mul (k + 1) r
    rw [div_eq_iff h1]
    linear_combination dt * this

/-- **C10** (expanding branch).  For at least two time steps and `tmax` beyond the uniform
grid, the iteration terminates; the result has `Nt` positive entries that start at `dt`, all
entries but the last increase strictly, and the last entry is exactly `tmax`. -/
theorem time_geometric_expanding (dt tmax : ℝ) (hdt : 0 < dt) (Nt : ℕ) (hN : 2 ≤ Nt)
    (hT : Nt * dt < tmax) :
    ∃ time, TimeGeometric dt tmax Nt time ∧ time.length = Nt ∧ time.head? = some dt ∧
      time.getLast? = some tmax ∧ time.dropLast.Pairwise (· < ·) ∧ ∀ t ∈ time, 0 < t := by
  have hT' := div_gt hdt hT
  obtain ⟨ρ, hρ, he⟩ := exists_root hN hT'
  obtain ⟨s, hs, h1, -⟩ := geo_final hN hT' hρ he
  refine ⟨geoTimes dt tmax Nt s.r, ?_, ?_, ?_, ?_, ?_, ?_⟩
  · rw [TimeGeometric, if_pos hT]
    exact ⟨s, hs, rfl⟩
  · simp [geoTimes]
  · rw [List.head?_eq_getElem?, List.getElem?_eq_getElem (by simp [geoTimes]; omega),
      geoTimes_get h1 0 (by omega), if_neg (by omega)]
    simp [gs]
  · rw [List.getLast?_eq_getElem?]
    have hl : (geoTimes dt tmax Nt s.r).length = Nt := by simp [geoTimes]
    rw [hl, List.getElem?_eq_getElem (by omega), geoTimes_get h1 (Nt - 1) (by omega), if_pos rfl]
  · rw [List.pairwise_iff_getElem]
    intro i j hi hj hij
    have hl : (geoTimes dt tmax Nt s.r).length = Nt := by simp [geoTimes]
    simp only [List.length_dropLast, hl] at hi hj
    simp only [List.getElem_dropLast]
    rw [geoTimes_get h1 i (by omega), geoTimes_get h1 j (by omega), if_neg (by omega),
      if_neg (by omega)]
    apply mul_lt_mul_of_pos_left _ hdt
    refine Finset.sum_lt_sum_of_subset (i := i + 1) (by simp; omega) (by simp; omega) (by simp)
      (by positivity) fun k _ _ => by positivity
  · intro t ht
    obtain ⟨k, hk, rfl⟩ := List.getElem_of_mem ht
    have hk' : k < Nt := by simpa [geoTimes] using hk
    rw [geoTimes_get h1 k hk']
    split_ifs
    · have : (0 : ℝ) ≤ Nt * dt := by positivity
      linarith
    · apply mul_pos hdt
      apply Finset.sum_pos (fun i _ => by positivity) (by simp)

/-- `time_geometric` has at most one result. -/
theorem time_geometric_unique (dt tmax : ℝ) (Nt : ℕ) (t₁ t₂ : List ℝ)
    (h₁ : TimeGeometric dt tmax Nt t₁) (h₂ : TimeGeometric dt tmax Nt t₂) : t₁ = t₂ := by
  rw [TimeGeometric] at h₁ h₂
  split_ifs at h₁ h₂
  · obtain ⟨s₁, l₁, rfl⟩ := h₁
    obtain ⟨s₂, l₂, rfl⟩ := h₂
    rw [l₁.det l₂]
  · rw [h₁, h₂]

/-- **C10**, partial: the whole grid is strictly increasing when `tmax/dt` exceeds the uniform
grid by a small explicit margin, `tmax/dt > Σ_{j<Nt} (1 + Nt·10⁻¹⁰)^j`.  (The unrestricted
claim is false, see `time_geometric_not_increasing`.) -/
theorem time_geometric_increasing_partial (dt tmax : ℝ) (hdt : 0 < dt) (Nt : ℕ) (hN : 2 ≤ Nt)
    (hT : (∑ j ∈ range Nt, (1 + (Nt : ℝ) / 10 ^ 10) ^ j) < tmax / dt) (time : List ℝ)
    (h : TimeGeometric dt tmax Nt time) : time.Pairwise (· < ·) := by
  have hδ : (0 : ℝ) < (Nt : ℝ) / 10 ^ 10 := by positivity
  have hT' : (Nt : ℝ) < tmax / dt := by
    refine lt_of_le_of_lt ?_ hT
    calc (Nt : ℝ) = ∑ j ∈ range Nt, (1 : ℝ) := by simp
      _ ≤ _ := Finset.sum_le_sum fun j _ => one_le_pow₀ (by linarith)
  have hT'' : Nt * dt < tmax := by rwa [lt_div_iff₀ hdt] at hT'
  obtain ⟨ρ, hρ, he⟩ := exists_root hN hT'
  obtain ⟨s, hs, h1, hcase⟩ := geo_final hN hT' hρ he
  have hρδ : 1 + (Nt : ℝ) / 10 ^ 10 < ρ := by
    by_contra hc
    rw [not_lt] at hc
    have := gs_mono (n := Nt) (by linarith : 0 ≤ ρ) hc
    rw [he] at this
    exact absurd hT (not_lt.mpr this)
  have hlast : gs (Nt - 1) s.r < tmax / dt := by
    rcases hcase with hle | ⟨hge, p, hp1, hp2, hp3⟩
    · have h2 := gs_lt_succ (n := Nt - 1) (by linarith : 0 < s.r)
      rw [show Nt - 1 + 1 = Nt by omega] at h2
      have h3 := gs_mono (n := Nt) (by linarith : 0 ≤ s.r) hle
      linarith
    · rw [gs_lt_iff h1]
      have e1 : s.r ^ Nt = s.r ^ (Nt - 1) * s.r := by
        rw [← pow_succ, show Nt - 1 + 1 = Nt by omega]
      have hNpos : (0 : ℝ) < Nt := by positivity
      have hTpos : 0 < tmax / dt := by linarith
      have h4 : tmax / dt ≤ Nt * s.r ^ (Nt - 1) := by
        rw [← he]
        refine (gs_le hρ.le).trans ?_
        apply mul_le_mul_of_nonneg_left _ hNpos.le
        exact pow_le_pow_left₀ (by linarith) hge _
      have h5 : tmax / dt * (p - s.r) ≤ tmax / dt * (1 / 10 ^ 10) :=
        mul_le_mul_of_nonneg_left hp2 hTpos.le
      have hpw : 0 < s.r ^ (Nt - 1) := by positivity
      have h6 : s.r ^ (Nt - 1) * ((Nt : ℝ) / 10 ^ 10) < s.r ^ (Nt - 1) * (s.r - 1) := by
        apply mul_lt_mul_of_pos_left _ hpw
        linarith
      have h7 : tmax / dt * (1 / 10 ^ 10) ≤ s.r ^ (Nt - 1) * ((Nt : ℝ) / 10 ^ 10) := by
        calc tmax / dt * (1 / 10 ^ 10) ≤ Nt * s.r ^ (Nt - 1) * (1 / 10 ^ 10) :=
              mul_le_mul_of_nonneg_right h4 (by positivity)
          _ = _ := by ring
      rw [e1] at hp3
      linarith
  have hres : TimeGeometric dt tmax Nt (geoTimes dt tmax Nt s.r) := by
    rw [TimeGeometric, if_pos hT'']
    exact ⟨s, hs, rfl⟩
  obtain rfl := time_geometric_unique dt tmax Nt _ _ h hres
  rw [List.pairwise_iff_getElem]
  intro i j hi hj hij
  have hl : (geoTimes dt tmax Nt s.r).length = Nt := by simp [geoTimes]
  rw [hl] at hi hj
  rw [geoTimes_get h1 i (by omega), geoTimes_get h1 j (by omega), if_neg (by omega)]
  have hmono : ∀ a b : ℕ, a ≤ b → gs a s.r ≤ gs b s.r := by
    intro a b hab
    exact Finset.sum_le_sum_of_subset_of_nonneg (by simpa using hab) fun k _ _ => by positivity
  split_ifs with hj'
  · have := hmono (i + 1) (Nt - 1) (by omega)
    rw [lt_div_iff₀ hdt] at hlast
    nlinarith
  · apply mul_lt_mul_of_pos_left _ hdt
    refine Finset.sum_lt_sum_of_subset (i := i + 1) (by simp; omega) (by simp; omega) (by simp)
      (by positivity) fun k _ _ => by positivity

/-- Non-vacuity: one hundred steps of one hour up to ten thousand hours. -/
example : (0 : ℝ) < 3600 ∧ 2 ≤ 100 ∧ ((100 : ℕ) : ℝ) * 3600 < 36000000 := by norm_num

/-- Non-vacuity of the margin: three steps, `tmax = 5 * dt`. -/
example : (∑ j ∈ range 3, (1 + ((3 : ℕ) : ℝ) / 10 ^ 10) ^ j) < 18000 / 3600 := by
  norm_num [Finset.sum_range_succ]

/-- Lower bound of the iteration function near one. -/
theorem geoF_lower {T : ℝ} {N : ℕ} (hN : 1 ≤ N) (hT : (N : ℝ) ≤ T) {y : ℝ} (hy : 0 ≤ y) :
    1 + (y - N * y ^ 2 / 2) ≤ geoF T N (1 + y) := by
  have hN0 : (0 : ℝ) < N := by positivity
  have hT0 : 0 ≤ T := by linarith
  have hp : 0 ≤ 1 + T * (1 + y - 1) := pos_arg hT0 (by linarith)
  rcases le_total (1 + (y - N * y ^ 2 / 2)) 0 with h | h
  · exact h.trans (geoF_nonneg hp)
  · apply le_geoF hN hp
    have hu : 0 ≤ N * y := by positivity
    calc (1 + (y - N * y ^ 2 / 2)) ^ N ≤ Real.exp (y - N * y ^ 2 / 2) ^ N := by
          apply pow_le_pow_left₀ h
          have := Real.add_one_le_exp (y - N * y ^ 2 / 2)
          linarith
      _ = Real.exp (N * (y - N * y ^ 2 / 2)) := by rw [← Real.exp_nat_mul]
      _ ≤ Real.exp (Real.log (1 + N * y)) := by
          apply Real.exp_le_exp.mpr
          refine le_trans ?_ (Real.le_log_one_add_of_nonneg hu)
          rw [le_div_iff₀ (by linarith)]
          have : 0 ≤ (N * y) ^ 3 := by positivity
          nlinarith
      _ = 1 + N * y := Real.exp_log (by linarith)
      _ ≤ 1 + T * (1 + y - 1) := by nlinarith

/-- **C10** is false without the margin: for `Nt = 10000` steps of one second and
`tmax = 10000.001 s` the iteration stops before the expansion rate is resolved, and the last
but one time lies beyond the last one. -/
theorem time_geometric_not_increasing :
    ∃ time, TimeGeometric 1 (10000 + 1 / 1000) 10000 time ∧ ¬ time.Pairwise (· < ·) := by
  classical
  obtain ⟨tmax, htmax⟩ : ∃ t : ℝ, t = 10000 + 1 / 1000 := ⟨_, rfl⟩
  rw [← htmax]
  have hT : ((10000 : ℕ) : ℝ) < tmax / 1 := by rw [htmax]; norm_num
  obtain ⟨ρ, hρ, he⟩ := exists_root (N := 10000) (by norm_num) hT
  obtain ⟨s, hs, h1, -⟩ := geo_final (by norm_num) hT hρ he
  refine ⟨geoTimes 1 tmax 10000 s.r, ?_, ?_⟩
  · rw [TimeGeometric, if_pos (by rw [htmax]; norm_num)]
    exact ⟨s, hs, rfl⟩
  -- the expansion rate stays away from one
  obtain ⟨y0, y0_def⟩ : ∃ y : ℝ, y = 14 / 10 ^ 8 := ⟨_, rfl⟩
  obtain ⟨tol, tol_def⟩ : ∃ y : ℝ, y = 1 / 10 ^ 10 := ⟨_, rfl⟩
  let J : GeoVars → Prop := fun s => if geoCond s then y0 - tol ≤ s.r - 1 else y0 - 2 * tol ≤ s.r - 1
  have hy0 : 0 < y0 - tol := by rw [y0_def, tol_def]; norm_num
  have htol : 0 < tol := by rw [tol_def]; norm_num
  have hJ : J s := by
    refine hs.invariant (I := J) ?_ ?_
    · intro s hJs hc
      have hr : y0 - tol ≤ s.r - 1 := by simpa [J, hc] using hJs
      have hr0 : 0 ≤ s.r - 1 := by linarith
      have hlow := geoF_lower (N := 10000) (by norm_num) hT.le hr0
      rw [show 1 + (s.r - 1) = s.r by ring] at hlow
      by_cases hbig : y0 ≤ s.r - 1
      · -- far from one: one step leads at most to y0 - tol
        have hmono : geoF (tmax / 1) 10000 (1 + y0) ≤ geoF (tmax / 1) 10000 s.r := by
          apply Real.rpow_le_rpow
          · apply pos_arg (by linarith) (by linarith)
          · have : 0 ≤ tmax / 1 := by linarith
            have := mul_le_mul_of_nonneg_left hbig this
            have e : 1 + y0 - 1 = y0 := by ring
            rw [e]
            linarith
          · positivity
        have hl0 := geoF_lower (N := 10000) (by norm_num) hT.le (by linarith : 0 ≤ y0)
        have hnum : y0 - tol ≤ y0 - ((10000 : ℕ) : ℝ) * y0 ^ 2 / 2 := by rw [y0_def, tol_def]; norm_num
        have hfin : y0 - tol ≤ (geoBody 1 tmax 10000 s).r - 1 := by
          rw [geoBody_r]; linarith
        simp only [J]
        split_ifs
        · exact hfin
        · linarith
      · rw [not_le] at hbig
        have hsq : ((10000 : ℕ) : ℝ) * (s.r - 1) ^ 2 / 2 ≤ tol := by
          have h2 : (s.r - 1) ^ 2 ≤ y0 ^ 2 := pow_le_pow_left₀ hr0 hbig.le 2
          have h3 : ((10000 : ℕ) : ℝ) * y0 ^ 2 / 2 ≤ tol := by rw [y0_def, tol_def]; norm_num
          have h4 : ((10000 : ℕ) : ℝ) * (s.r - 1) ^ 2 ≤ ((10000 : ℕ) : ℝ) * y0 ^ 2 :=
            mul_le_mul_of_nonneg_left h2 (by positivity)
          linarith
        have hge : s.r - tol ≤ geoF (tmax / 1) 10000 s.r := by linarith
        simp only [J]
        rw [geoBody_r]
        split_ifs with hc'
        · -- a large step must go upwards
          rw [geoCond, geoBody_dr, lt_abs] at hc'
          rcases hc' with hc' | hc'
          · have : (0 : ℝ) < 1 / 10 ^ 10 := by positivity
            linarith
          · exfalso
            have : tol < -(geoF (tmax / 1) 10000 s.r - s.r) := by rw [tol_def]; exact hc'
            linarith
        · linarith
    · simp only [J]
      rw [if_pos (by rw [geoCond, geoInit]; norm_num)]
      norm_num [geoInit, y0_def, tol_def]
  have hx : y0 - 2 * tol ≤ s.r - 1 := by
    have := hs.not_cond
    simpa [J, this] using hJ
  intro hp
  rw [List.pairwise_iff_getElem] at hp
  have hl : (geoTimes 1 tmax 10000 s.r).length = 10000 := by simp [geoTimes]
  have := hp 9998 9999 (by omega) (by omega) (by omega)
  rw [geoTimes_get h1 9998 (by omega), geoTimes_get h1 9999 (by omega), if_neg (by omega),
    if_pos (by norm_num)] at this
  have hsum : (9999 : ℝ) + (s.r - 1) * 49985001 ≤ gs 9999 s.r := by
    have hb : ∀ j ∈ range 9999, 1 + (j : ℝ) * (s.r - 1) ≤ s.r ^ j := by
      intro j _
      have := one_add_mul_le_pow (a := s.r - 1) (by linarith) j
      rwa [show 1 + (s.r - 1) = s.r by ring] at this
    have hg : (∑ j ∈ range 9999, (j : ℝ)) = 49985001 := by
      have := Finset.sum_range_id_mul_two 9999
      have h2 : (∑ j ∈ range 9999, j) = 49985001 := by omega
      have h3 : ((∑ j ∈ range 9999, j : ℕ) : ℝ) = 49985001 := by rw [h2]; norm_num
      rw [← h3]; push_cast; rfl
    calc (9999 : ℝ) + (s.r - 1) * 49985001 = ∑ j ∈ range 9999, (1 + (j : ℝ) * (s.r - 1)) := by
          rw [Finset.sum_add_distrib, ← Finset.sum_mul, hg, Finset.sum_const, Finset.card_range,
            nsmul_eq_mul]
          push_cast
          ring
      _ ≤ gs 9999 s.r := Finset.sum_le_sum hb
  have e : gs (9998 + 1) s.r = gs 9999 s.r := rfl
  rw [e, one_mul] at this
  generalize gs 9999 s.r = g9 at hsum this
  have h9 : (9999 : ℝ) + (y0 - 2 * tol) * 49985001 ≤ g9 := by linarith
  rw [y0_def, tol_def] at h9
  norm_num at h9
  rw [htmax] at this
  linarith

/-- **C10** is false for `Nt = 1` over the reals: the iteration does not terminate when `tmax`
exceeds `dt` by more than the tolerance.  (In floating point the loop ends after overflow.) -/
theorem time_geometric_one_diverges (dt tmax : ℝ) (hT : 1 + 1 / 10 ^ 10 < tmax / dt)
    (hdt : 0 < dt) : ¬ ∃ time, TimeGeometric dt tmax 1 time := by
  rintro ⟨time, h⟩
  have htm : tmax > (1 : ℕ) * dt := by
    have h1 : (1 : ℝ) < tmax / dt := by
      have : (0 : ℝ) < 1 / 10 ^ 10 := by positivity
      linarith
    rw [lt_div_iff₀ hdt] at h1
    push_cast; linarith
  rw [TimeGeometric, if_pos htm] at h
  obtain ⟨s, hs, -⟩ := h
  have hinv : geoCond s ∧ 2 ≤ s.r := by
    refine hs.invariant (I := fun s => geoCond s ∧ 2 ≤ s.r) ?_ ?_
    · rintro s ⟨-, hr⟩ -
      have e : geoF (tmax / dt) 1 s.r = 1 + tmax / dt * (s.r - 1) := by
        simp [geoF]
      have h0 : (1 : ℝ) / 10 ^ 10 < (tmax / dt - 1) * (s.r - 1) := by
        have h1 : (1 : ℝ) / 10 ^ 10 < tmax / dt - 1 := by linarith
        have : (0 : ℝ) < 1 / 10 ^ 10 := by positivity
        nlinarith
      refine ⟨?_, ?_⟩
      · rw [geoCond, geoBody_dr, e, lt_abs]
        left; linarith
      · rw [geoBody_r, e]
        have : (0 : ℝ) < 1 / 10 ^ 10 := by positivity
        linarith
    · refine ⟨?_, le_refl 2⟩
      rw [geoCond, geoInit]; norm_num
  exact hs.not_cond hinv.1

end Verif.Util
