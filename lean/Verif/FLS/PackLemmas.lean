import Verif.FLS.DefLemmas
import Mathlib.MeasureTheory.Integral.Prod
import Mathlib.Analysis.SpecialFunctions.Gaussian.GaussianIntegral
import Mathlib.Analysis.Real.Pi.Bounds
import Mathlib.Analysis.Complex.ExponentialBounds

/-!
# Lemmas: boreholes at a distance of at least ten radii, in any number
-/

noncomputable section

namespace Verif.FLS

open Real MeasureTheory Set

/-- The mean of a Gaussian over an interval is at least its value at the mean square. -/
theorem gauss_mean (s p : ℝ) {h : ℝ} (hh : 0 < h) : 2 * h * exp (-s ^ 2 * (p ^ 2 + h ^ 2 / 3)) ≤ ∫ x in Ioc (p - h) (p + h), exp (-s ^ 2 * x ^ 2) := by
  obtain ⟨y, hy⟩ : ∃ y, y = -s ^ 2 * (p ^ 2 + h ^ 2 / 3) := ⟨_, rfl⟩
  have hle : p - h ≤ p + h := by linarith
  rw [← intervalIntegral.integral_of_le hle, ← hy]
  have h1 : ∫ x in (p - h)..(p + h), exp y * (1 - y - s ^ 2 * x ^ 2) = 2 * h * exp y := by
    rw [intervalIntegral.integral_const_mul, intervalIntegral.integral_sub (by simp) (by apply Continuous.intervalIntegrable; fun_prop), intervalIntegral.integral_const_mul, integral_pow]
    simp only [intervalIntegral.integral_const, smul_eq_mul]
    rw [hy]; push_cast; ring
  rw [← h1]
  refine intervalIntegral.integral_mono_on hle (by apply Continuous.intervalIntegrable; fun_prop) (by apply Continuous.intervalIntegrable; fun_prop) fun x _ => ?_
  have := add_one_le_exp (-s ^ 2 * x ^ 2 - y)
  have e : exp (-s ^ 2 * x ^ 2) = exp y * exp (-s ^ 2 * x ^ 2 - y) := by rw [← exp_add]; congr 1; ring
  rw [e]
  refine mul_le_mul_of_nonneg_left ?_ (exp_pos y).le
  linarith

variable {κ : Type*} [Fintype κ]

/-- The square of half side `h` around a point. -/
def tile (h x y : ℝ) : Set (ℝ × ℝ) := Ioc (x - h) (x + h) ×ˢ Ioc (y - h) (y + h)

theorem tile_measurable (h x y : ℝ) : MeasurableSet (tile h x y) := measurableSet_Ioc.prod measurableSet_Ioc

theorem tile_disjoint {h x y x' y' : ℝ} (hd : 8 * h ^ 2 ≤ (x - x') ^ 2 + (y - y') ^ 2) (hh : 0 < h) : Disjoint (tile h x y) (tile h x' y') := by
  rw [Set.disjoint_left]
  rintro ⟨a, b⟩ ⟨⟨h1, h2⟩, h3, h4⟩ ⟨⟨h5, h6⟩, h7, h8⟩
  simp only at *
  have e1 : (x - x') ^ 2 < (2 * h) ^ 2 := sq_lt_sq' (by linarith) (by linarith)
  have e2 : (y - y') ^ 2 < (2 * h) ^ 2 := sq_lt_sq' (by linarith) (by linarith)
  nlinarith

theorem gauss_integrable {s : ℝ} (hs : 0 < s) : Integrable fun x : ℝ => exp (-s ^ 2 * x ^ 2) := integrable_exp_neg_mul_sq (by positivity)

theorem packing {s h : ℝ} (hs : 0 < s) (hh : 0 < h) (x y : κ → ℝ) (hd : ∀ k l, k ≠ l → 8 * h ^ 2 ≤ (x k - x l) ^ 2 + (y k - y l) ^ 2) :
    ∑ k, exp (-(x k ^ 2 + y k ^ 2) * s ^ 2) ≤ exp (2 / 3 * (s * h) ^ 2) * π / (4 * (s * h) ^ 2) := by
  have hi : Integrable (fun z : ℝ × ℝ => exp (-s ^ 2 * z.1 ^ 2) * exp (-s ^ 2 * z.2 ^ 2)) := (gauss_integrable hs).mul_prod (gauss_integrable hs)
  have h1 : ∑ k, ∫ z in tile h (x k) (y k), exp (-s ^ 2 * z.1 ^ 2) * exp (-s ^ 2 * z.2 ^ 2) ≤ π / s ^ 2 := by
    rw [← integral_biUnion_finset Finset.univ (fun k _ => tile_measurable h (x k) (y k)) (fun k _ l _ hkl => tile_disjoint (hd k l hkl) hh) fun k _ => hi.integrableOn]
    refine (setIntegral_le_integral hi (Filter.Eventually.of_forall fun z => by positivity)).trans_eq ?_
    rw [Measure.volume_eq_prod, integral_prod_mul (fun x : ℝ => exp (-s ^ 2 * x ^ 2)) (fun x : ℝ => exp (-s ^ 2 * x ^ 2)), integral_gaussian, mul_self_sqrt (by positivity)]
  have h2 : ∀ k, 4 * h ^ 2 * exp (-(2 / 3 * (s * h) ^ 2)) * exp (-(x k ^ 2 + y k ^ 2) * s ^ 2) ≤ ∫ z in tile h (x k) (y k), exp (-s ^ 2 * z.1 ^ 2) * exp (-s ^ 2 * z.2 ^ 2) := fun k => by
    unfold tile
    rw [Measure.volume_eq_prod, setIntegral_prod_mul (fun x : ℝ => exp (-s ^ 2 * x ^ 2)) (fun x : ℝ => exp (-s ^ 2 * x ^ 2))]
    refine le_trans (le_of_eq ?_) (mul_le_mul (gauss_mean s (x k) hh) (gauss_mean s (y k) hh) (by positivity) (setIntegral_nonneg measurableSet_Ioc fun _ _ => by positivity))
    have : exp (-(2 / 3 * (s * h) ^ 2)) * exp (-(x k ^ 2 + y k ^ 2) * s ^ 2) = exp (-s ^ 2 * (x k ^ 2 + h ^ 2 / 3)) * exp (-s ^ 2 * (y k ^ 2 + h ^ 2 / 3)) := by
      rw [← exp_add, ← exp_add]; congr 1; ring
    rw [mul_assoc, this]; ring
  have h3 := (Finset.sum_le_sum fun k _ => h2 k).trans h1
  obtain ⟨S, hS⟩ : ∃ S, S = ∑ k, exp (-(x k ^ 2 + y k ^ 2) * s ^ 2) := ⟨_, rfl⟩
  obtain ⟨E, hE⟩ : ∃ E, E = exp (2 / 3 * (s * h) ^ 2) := ⟨_, rfl⟩
  have he : 0 < E := by rw [hE]; exact exp_pos _
  rw [← Finset.mul_sum, exp_neg, ← hS, ← hE, le_div_iff₀ (by positivity)] at h3
  rw [← hS, ← hE, le_div_iff₀ (by positivity)]
  have h4 := mul_le_mul_of_nonneg_left h3 he.le
  have e : E * (4 * h ^ 2 * E⁻¹ * S * s ^ 2) = S * (4 * (s * h) ^ 2) := by field_simp
  rwa [e] at h4

/-- Boreholes at a distance of at least ten radii are far from each other. -/
theorem sparse_of_ten_radii [DecidableEq κ] {r : ℝ} (hr : 0 < r) (X Y : κ → ℝ) (hd : ∀ k l, k ≠ l → (10 * r) ^ 2 ≤ (X k - X l) ^ 2 + (Y k - Y l) ^ 2) : Sparse r X Y (√(3 / 25) / r) := by
  have hs : 0 < √(3 / 25 : ℝ) / r := by positivity
  have hsq : (√(3 / 25 : ℝ) / r) ^ 2 = 3 / 25 / r ^ 2 := by rw [div_pow, sq_sqrt (by norm_num)]
  obtain ⟨s, hse⟩ : ∃ s, s = √(3 / 25 : ℝ) / r := ⟨_, rfl⟩
  rw [← hse] at hs hsq ⊢
  have hrs : r ^ 2 * s ^ 2 = 3 / 25 := by rw [hsq]; field_simp
  refine ⟨hs, hrs.le, fun k l h => by nlinarith [hd k l h], fun k => ?_⟩
  obtain ⟨h, hh⟩ : ∃ h, h = √(25 / 2) * r := ⟨_, rfl⟩
  have hh0 : 0 < h := by rw [hh]; positivity
  have hh2 : h ^ 2 = 25 / 2 * r ^ 2 := by rw [hh, mul_pow, sq_sqrt (by norm_num)]
  have hp := packing hs hh0 (fun l => X k - X l) (fun l => Y k - Y l) fun l m hlm => by
    have := hd l m hlm
    rw [hh2]
    calc 8 * (25 / 2 * r ^ 2) = (10 * r) ^ 2 := by ring
      _ ≤ _ := this
      _ = _ := by ring
  have hsh : (s * h) ^ 2 = 3 / 2 := by rw [mul_pow, hh2]; linarith
  rw [hsh, ← Finset.add_sum_erase _ _ (Finset.mem_univ k)] at hp
  have e0 : exp (-((X k - X k) ^ 2 + (Y k - Y k) ^ 2) * s ^ 2) = 1 := by simp
  rw [e0, show (2 : ℝ) / 3 * (3 / 2) = 1 by norm_num] at hp
  have h1 := exp_one_lt_d9
  have h2 := pi_lt_d4
  have h3 := pi_pos
  have h4 : exp 1 * π ≤ 2.7182818286 * 3.1416 := mul_le_mul h1.le h2.le h3.le (by norm_num)
  have h5 := add_one_le_exp (-r ^ 2 * s ^ 2)
  rw [show -r ^ 2 * s ^ 2 = -(3 / 25) by linarith] at h5 ⊢
  have h6 : exp 1 * π / (4 * (3 / 2)) ≤ 1.44 := by rw [div_le_iff₀ (by norm_num)]; linarith
  linarith

end Verif.FLS
