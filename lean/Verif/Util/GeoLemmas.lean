import Verif.Util.GeoModel
import Mathlib.Analysis.SpecialFunctions.Log.Deriv
import Mathlib.Topology.Order.IntermediateValue
import Mathlib.Topology.Algebra.Ring.Real
import Mathlib.Algebra.Order.Ring.GeomSum

/-! # Helper lemmas for `time_geometric` -/

namespace Verif.Util

open Finset

/-- Geometric sum `1 + r + ... + r^(n-1)`. -/
def gs (n : ℕ) (r : ℝ) : ℝ := ∑ j ∈ range n, r ^ j

theorem gs_mul (n : ℕ) (r : ℝ) : gs n r * (r - 1) = r ^ n - 1 := by
  rw [gs, geom_sum_mul]

theorem gs_mono {n : ℕ} {r s : ℝ} (hr : 0 ≤ r) (hrs : r ≤ s) : gs n r ≤ gs n s :=
  Finset.sum_le_sum fun _ _ => pow_le_pow_left₀ hr hrs _

theorem gs_lt_succ {n : ℕ} {r : ℝ} (hr : 0 < r) : gs n r < gs (n + 1) r := by
  rw [gs, gs, Finset.sum_range_succ]
  have : 0 < r ^ n := by positivity
  linarith

theorem gs_le {n : ℕ} {r : ℝ} (hr : 1 ≤ r) : gs n r ≤ n * r ^ (n - 1) := by
  calc gs n r ≤ ∑ _j ∈ range n, r ^ (n - 1) := by
        apply Finset.sum_le_sum
        intro x hx
        rw [Finset.mem_range] at hx
        exact pow_le_pow_right₀ hr (by omega)
    _ = n * r ^ (n - 1) := by simp

/-- The iteration function. -/
noncomputable def geoF (T : ℝ) (N : ℕ) (r : ℝ) : ℝ := (1 + T * (r - 1)) ^ ((1 : ℝ) / (N : ℝ))

theorem geoF_pow {T : ℝ} {N : ℕ} (hN : 1 ≤ N) {r : ℝ} (h : 0 ≤ 1 + T * (r - 1)) :
    geoF T N r ^ N = 1 + T * (r - 1) := by
  have hN' : (N : ℝ) ≠ 0 := by positivity
  rw [geoF, ← Real.rpow_natCast, ← Real.rpow_mul h, one_div, inv_mul_cancel₀ hN', Real.rpow_one]

theorem geoF_nonneg {T : ℝ} {N : ℕ} {r : ℝ} (h : 0 ≤ 1 + T * (r - 1)) : 0 ≤ geoF T N r :=
  Real.rpow_nonneg h _

theorem le_geoF {T : ℝ} {N : ℕ} (hN : 1 ≤ N) {r x : ℝ} (h : 0 ≤ 1 + T * (r - 1))
    (hx : x ^ N ≤ 1 + T * (r - 1)) : x ≤ geoF T N r := by
  by_contra hc
  rw [not_le] at hc
  have := pow_lt_pow_left₀ hc (geoF_nonneg h) (by omega : N ≠ 0)
  rw [geoF_pow hN h] at this
  linarith

theorem geoF_le {T : ℝ} {N : ℕ} (hN : 1 ≤ N) {r x : ℝ} (h : 0 ≤ 1 + T * (r - 1)) (h0 : 0 ≤ x)
    (hx : 1 + T * (r - 1) ≤ x ^ N) : geoF T N r ≤ x := by
  by_contra hc
  rw [not_le] at hc
  have := pow_lt_pow_left₀ hc h0 (by omega : N ≠ 0)
  rw [geoF_pow hN h] at this
  linarith

/-- The exact expansion rate exists. -/
theorem exists_root {T : ℝ} {N : ℕ} (hN : 2 ≤ N) (hT : (N : ℝ) < T) :
    ∃ ρ, 1 < ρ ∧ gs N ρ = T := by
  have hc : ContinuousOn (gs N) (Set.Icc 1 T) := by
    unfold gs; fun_prop
  have hN1 : (2 : ℝ) ≤ N := by exact_mod_cast hN
  have h1 : gs N 1 = N := by simp [gs]
  have hTle : T ≤ gs N T := by
    have : gs 2 T ≤ gs N T := by
      apply Finset.sum_le_sum_of_subset_of_nonneg (by simpa using hN)
      intro i _ _
      have : 0 ≤ T := by linarith
      positivity
    have e : gs 2 T = 1 + T := by simp [gs, Finset.sum_range_succ]
    linarith
  obtain ⟨ρ, hρ, he⟩ := intermediate_value_Icc (by linarith : (1 : ℝ) ≤ T) hc
    ⟨by rw [h1]; exact hT.le, hTle⟩
  refine ⟨ρ, lt_of_le_of_ne hρ.1 ?_, he⟩
  rintro rfl
  rw [h1] at he
  linarith

section
variable {T : ℝ} {N : ℕ} {ρ : ℝ}

theorem pos_arg {r : ℝ} (hT : 0 ≤ T) (hr : 1 ≤ r) : 0 ≤ 1 + T * (r - 1) := by
  have := mul_nonneg hT (sub_nonneg.mpr hr)
  linarith

/-- Below the exact rate the iteration increases and stays below. -/
theorem geoF_low (hN : 1 ≤ N) (hT : 0 ≤ T) (he : gs N ρ = T) (hρ : 1 < ρ) {r : ℝ}
    (h1 : 1 < r) (hr : r ≤ ρ) : r ≤ geoF T N r ∧ geoF T N r ≤ ρ := by
  have hp := pos_arg hT h1.le
  constructor
  · apply le_geoF hN hp
    have := gs_mul N r
    have h2 := gs_mono (n := N) (by linarith : 0 ≤ r) hr
    rw [he] at h2
    nlinarith
  · apply geoF_le hN hp (by linarith)
    have := gs_mul N ρ
    rw [he] at this
    nlinarith

/-- Above the exact rate the iteration decreases and stays above. -/
theorem geoF_high (hN : 1 ≤ N) (hT : 0 ≤ T) (he : gs N ρ = T) (hρ : 1 < ρ) {r : ℝ}
    (hr : ρ ≤ r) : geoF T N r ≤ r ∧ ρ ≤ geoF T N r := by
  have hp := pos_arg hT (hρ.le.trans hr)
  constructor
  · apply geoF_le hN hp (by linarith)
    have := gs_mul N r
    have h2 := gs_mono (n := N) (by linarith : 0 ≤ ρ) hr
    rw [he] at h2
    nlinarith
  · apply le_geoF hN hp
    have := gs_mul N ρ
    rw [he] at this
    nlinarith

end

theorem geoBody_r (dt tmax : ℝ) (N : ℕ) (s : GeoVars) :
    (geoBody dt tmax N s).r = geoF (tmax / dt) N s.r := by
  simp [geoBody, geoF]

theorem geoBody_dr (dt tmax : ℝ) (N : ℕ) (s : GeoVars) :
    (geoBody dt tmax N s).dr = geoF (tmax / dt) N s.r - s.r := by
  simp [geoBody, geoF]

/-- A loop whose variable moves monotonically (direction `e`) in a bounded range
terminates. -/
theorem terminates_of_monotone (dt tmax : ℝ) (N : ℕ) (e : ℝ) (I : GeoVars → Prop) (B : ℝ)
    (h0 : I geoInit) (hI : ∀ s, I s → I (geoBody dt tmax N s))
    (hmono : ∀ s, I s → |(geoBody dt tmax N s).dr| = e * (geoF (tmax / dt) N s.r - s.r))
    (hB : ∀ s, I s → e * (s.r - 2) ≤ B) :
    ∃ s, Loop geoCond (geoBody dt tmax N) geoInit s := by
  by_contra hno
  have hall : ∀ n, geoCond ((geoBody dt tmax N)^[n] geoInit) := by
    intro n
    by_contra hc
    obtain ⟨m, -, -, hl⟩ := Loop.exists_of_iterate _ n hc
    exact hno ⟨_, hl⟩
  have hIn : ∀ n, I ((geoBody dt tmax N)^[n] geoInit) := by
    intro n
    induction n with
    | zero => exact h0
    | succ n ih => rw [Function.iterate_succ_apply']; exact hI _ ih
  have hgrow : ∀ n : ℕ, n * ((1 : ℝ) / 10 ^ 10)
      ≤ e * (((geoBody dt tmax N)^[n] geoInit).r - 2) := by
    intro n
    induction n with
    | zero => simp [geoInit]
    | succ n ih =>
      have hc := hall (n + 1)
      rw [Function.iterate_succ_apply'] at hc ⊢
      rw [geoCond, hmono _ (hIn n)] at hc
      rw [geoBody_r]
      push_cast
      linarith
  obtain ⟨n, hn⟩ := exists_nat_gt (B * 10 ^ 10)
  have h1 := hgrow n
  have h2 := hB _ (hIn n)
  have h3 : (n : ℝ) * (1 / 10 ^ 10) ≤ B := h1.trans h2
  rw [mul_one_div, div_le_iff₀ (by positivity)] at h3
  linarith

/-- What is known about the state in which the loop ends. -/
theorem geo_final {dt tmax : ℝ} {N : ℕ} (hN : 2 ≤ N) (hT : (N : ℝ) < tmax / dt) {ρ : ℝ}
    (hρ : 1 < ρ) (he : gs N ρ = tmax / dt) :
    ∃ s, Loop geoCond (geoBody dt tmax N) geoInit s ∧ 1 < s.r ∧
      (s.r ≤ ρ ∨ (ρ ≤ s.r ∧ ∃ p, s.r ≤ p ∧ p - s.r ≤ 1 / 10 ^ 10 ∧
        s.r ^ N = 1 + tmax / dt * (p - 1))) := by
  set T := tmax / dt with hTdef
  have hT0 : 0 ≤ T := by have : (0 : ℝ) ≤ N := by positivity
                         linarith
  have hN1 : 1 ≤ N := by omega
  rcases le_total 2 ρ with h2 | h2
  · let I : GeoVars → Prop := fun s => 1 < s.r ∧ s.r ≤ ρ
    have hI : ∀ s, I s → I (geoBody dt tmax N s) := by
      intro s hs
      obtain ⟨a, b⟩ := geoF_low hN1 hT0 he hρ hs.1 hs.2
      refine ⟨?_, ?_⟩ <;> rw [geoBody_r]
      · exact lt_of_lt_of_le hs.1 a
      · exact b
    have h0 : I geoInit := ⟨by norm_num [geoInit], h2⟩
    obtain ⟨s, hs⟩ := terminates_of_monotone dt tmax N 1 I (ρ - 2) h0 hI
      (by
        intro s hs
        rw [geoBody_dr, one_mul, abs_of_nonneg]
        have := (geoF_low hN1 hT0 he hρ hs.1 hs.2).1
        linarith)
      (by intro s hs; have := hs.2; linarith)
    have := hs.invariant (I := I) (fun s h _ => hI s h) h0
    exact ⟨s, hs, this.1, Or.inl this.2⟩
  · let I : GeoVars → Prop := fun s => ρ ≤ s.r
    have hI : ∀ s, I s → I (geoBody dt tmax N s) := by
      intro s hs
      have := (geoF_high hN1 hT0 he hρ hs).2
      change ρ ≤ _
      rw [geoBody_r]; exact this
    have h0 : I geoInit := h2
    obtain ⟨s, hs⟩ := terminates_of_monotone dt tmax N (-1) I (2 - ρ) h0 hI
      (by
        intro s hs
        rw [geoBody_dr, abs_of_nonpos]
        · ring
        · have := (geoF_high hN1 hT0 he hρ hs).1
          linarith)
      (by intro s (hs : ρ ≤ s.r); linarith)
    let J : GeoVars → Prop := fun s => ρ ≤ s.r ∧ (s = geoInit ∨
      ∃ p, ρ ≤ p ∧ s.r = geoF T N p ∧ s.dr = s.r - p)
    have hJ : J s := by
      refine hs.invariant (I := J) ?_ ⟨h0, Or.inl rfl⟩
      intro s h _
      refine ⟨hI s h.1, Or.inr ⟨s.r, h.1, geoBody_r dt tmax N s, ?_⟩⟩
      rw [geoBody_dr, geoBody_r]
    have hstop := hs.not_cond
    obtain ⟨h1, h3⟩ := hJ
    refine ⟨s, hs, lt_of_lt_of_le hρ h1, Or.inr ⟨h1, ?_⟩⟩
    rcases h3 with rfl | ⟨p, hp, hr, hd⟩
    · exfalso
      apply hstop
      rw [geoCond, geoInit]
      norm_num
    · refine ⟨p, ?_, ?_, ?_⟩
      · rw [hr]; exact (geoF_high hN1 hT0 he hρ hp).1
      · rw [geoCond, not_lt, hd, abs_le] at hstop
        linarith [hstop.1]
      · rw [hr]; exact geoF_pow hN1 (pos_arg hT0 (hρ.le.trans hp))

theorem gs_lt_iff {n : ℕ} {r x : ℝ} (hr : 1 < r) :
    gs (n - 1) r < x ↔ r ^ (n - 1) - 1 < x * (r - 1) := by
  rw [← gs_mul, mul_lt_mul_iff_left₀ (by linarith)]

end Verif.Util
