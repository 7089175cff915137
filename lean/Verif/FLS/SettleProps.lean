import Verif.FLS.SlowLemmas
import Verif.Bore.DistanceProps

/-!
# Property C132: how fast the finite line source approaches its steady state

The response between two vertical boreholes differs from the steady state that is returned for
infinite time by at most `H1 (H1 + 2 D1) (H2 + 2 D2) / (24 sqrt pi (alpha t)^(3/2))`, whatever the distance.
-/

noncomputable section

namespace Verif.FLS

open Real MeasureTheory Set Filter Topology

/-! ### Moments of the Gaussian -/

theorem pow_gauss_integrable (n : ℕ) {b : ℝ} (hb : 0 < b) : Integrable fun k : ℝ => k ^ n * exp (-b * k ^ 2) := by
  have := integrable_rpow_mul_exp_neg_mul_sq hb (s := n) (by have : (0 : ℝ) ≤ n := Nat.cast_nonneg n; linarith)
  simpa only [rpow_natCast] using this

theorem pow_gauss_step (n : ℕ) {b : ℝ} (hb : 0 < b) :
    ∫ k : ℝ, k ^ (n + 2) * exp (-b * k ^ 2) = (n + 1) / (2 * b) * ∫ k : ℝ, k ^ n * exp (-b * k ^ 2) := by
  have h0 := pow_gauss_integrable n hb
  have h1 := pow_gauss_integrable (n + 1) hb
  have h2 := pow_gauss_integrable (n + 2) hb
  have hd : ∀ k : ℝ, HasDerivAt (fun k => k ^ (n + 1) * exp (-b * k ^ 2)) ((n + 1) * (k ^ n * exp (-b * k ^ 2)) - 2 * b * (k ^ (n + 2) * exp (-b * k ^ 2))) k := fun k => by
    have := (hasDerivAt_pow (n + 1) k).mul (((hasDerivAt_pow 2 k).const_mul (-b)).exp)
    refine this.congr_deriv ?_
    push_cast
    ring_nf
  have hz := integral_eq_zero_of_hasDerivAt_of_integrable hd ((h0.const_mul _).sub (h2.const_mul _)) h1
  rw [integral_sub (h0.const_mul _) (h2.const_mul _), integral_const_mul, integral_const_mul] at hz
  have h3 : ∫ k : ℝ, k ^ (n + 2) * exp (-b * k ^ 2) = ((n + 1) * ∫ k : ℝ, k ^ n * exp (-b * k ^ 2)) / (2 * b) := by
    rw [eq_div_iff (by positivity)]
    linarith
  rw [h3]
  ring

theorem fourth_moment {b : ℝ} (hb : 0 < b) : ∫ k : ℝ, k ^ 4 * exp (-b * k ^ 2) = 3 / (4 * b ^ 2) * √(π / b) := by
  have h2 := pow_gauss_step 2 hb
  have h0 := pow_gauss_step 0 hb
  norm_num at h2 h0
  have hg := integral_gaussian b
  simp only [neg_mul] at h2 h0 hg ⊢
  rw [h2, h0, hg]
  field_simp
  norm_num

/-! ### The ends of source and receiver -/

theorem cos_sub_le (a c k : ℝ) : |cos (a * k) - cos (c * k)| ≤ |a ^ 2 - c ^ 2| / 2 * k ^ 2 := by
  have e : cos (a * k) - cos (c * k) = -2 * sin ((a * k + c * k) / 2) * sin ((a * k - c * k) / 2) := cos_sub_cos _ _
  rw [e, abs_mul, abs_mul]
  have h1 := abs_sin_le_abs (x := (a * k + c * k) / 2)
  have h2 := abs_sin_le_abs (x := (a * k - c * k) / 2)
  have h3 := mul_le_mul h1 h2 (abs_nonneg _) (abs_nonneg _)
  rw [← abs_mul ((a * k + c * k) / 2)] at h3
  have e2 : (a * k + c * k) / 2 * ((a * k - c * k) / 2) = (a ^ 2 - c ^ 2) * k ^ 2 / 4 := by ring
  have e4 : |((a ^ 2 - c ^ 2) * k ^ 2 / 4)| = |a ^ 2 - c ^ 2| * k ^ 2 / 4 := by
    rw [abs_div, abs_mul, abs_of_nonneg (sq_nonneg k)]; norm_num
  rw [e2, e4] at h3
  have : |(-2 : ℝ)| = 2 := by norm_num
  rw [this]
  nlinarith

theorem signed_integral {b : ℝ} (hb : 0 < b) (l : List (ℝ × ℝ)) :
    Integrable (fun k : ℝ => (l.map fun x => x.1 * cos (x.2 * k)).sum * exp (-b * k ^ 2)) ∧
      ∫ k : ℝ, (l.map fun x => x.1 * cos (x.2 * k)).sum * exp (-b * k ^ 2) = √(π / b) * (l.map fun x => x.1 * exp (-x.2 ^ 2 / (4 * b))).sum := by
  induction l with
  | nil => simp
  | cons x l ih =>
    have h := (cos_gauss_integrable x.2 hb).const_mul x.1
    have e : (fun k : ℝ => ((x :: l).map fun x => x.1 * cos (x.2 * k)).sum * exp (-b * k ^ 2))
        = fun k : ℝ => x.1 * (cos (x.2 * k) * exp (-b * k ^ 2)) + (l.map fun x => x.1 * cos (x.2 * k)).sum * exp (-b * k ^ 2) := by
      funext k
      simp only [List.map_cons, List.sum_cons]
      ring
    rw [e]
    refine ⟨h.add ih.1, ?_⟩
    rw [integral_add h ih.1, integral_const_mul, cos_gauss _ hb, ih.2]
    simp only [List.map_cons, List.sum_cons]
    ring

variable {D1 H1 D2 H2 : ℝ}

/-- The distances of the ends of source and receiver, with signs. -/
def rims (D1 H1 D2 H2 : ℝ) : List (ℝ × ℝ) :=
  List.zipWith Prod.mk [-1, 1, -1, 1, -1, 1, -1, 1] (Pair.qAll ⟨0, H1, D1, H2, D2⟩)

theorem rims_cos (k : ℝ) : ((rims D1 H1 D2 H2).map fun x => x.1 * cos (x.2 * k)).sum
    = 2 * (cos (D1 * k) - cos ((D1 + H1) * k)) * (cos (D2 * k) - cos ((D2 + H2) * k)) := by
  simp only [rims, Pair.qAll, List.zipWith_cons_cons, List.zipWith_nil_left, List.map_cons, List.map_nil, List.sum_cons, List.sum_nil]
  have h : ∀ a c : ℝ, 2 * cos a * cos c = cos (c - a) + cos (c + a) := fun a c => by rw [cos_sub, cos_add]; ring
  have e : 2 * (cos (D1 * k) - cos ((D1 + H1) * k)) * (cos (D2 * k) - cos ((D2 + H2) * k))
      = 2 * cos (D1 * k) * cos (D2 * k) - 2 * cos (D1 * k) * cos ((D2 + H2) * k) - 2 * cos ((D1 + H1) * k) * cos (D2 * k) + 2 * cos ((D1 + H1) * k) * cos ((D2 + H2) * k) := by ring
  rw [e, h, h, h, h]
  rw [show D2 * k - D1 * k = (D2 - D1) * k by ring, show D2 * k + D1 * k = (D2 + D1) * k by ring, show (D2 + H2) * k - D1 * k = (D2 - D1 + H2) * k by ring,
    show (D2 + H2) * k + D1 * k = (D2 + D1 + H2) * k by ring, show D2 * k - (D1 + H1) * k = (D2 - D1 - H1) * k by ring, show D2 * k + (D1 + H1) * k = (D2 + D1 + H1) * k by ring,
    show (D2 + H2) * k - (D1 + H1) * k = (D2 - D1 + H2 - H1) * k by ring, show (D2 + H2) * k + (D1 + H1) * k = (D2 + D1 + H2 + H1) * k by ring]
  ring

theorem rims_ends {s : ℝ} (hs : 0 < s) : ((rims D1 H1 D2 H2).map fun x => x.1 * exp (-x.2 ^ 2 / (4 * (1 / (4 * s ^ 2))))).sum
    = ends (ι := Bool) (fun i => if i then D1 else D2) (fun i => if i then H1 else H2) false true s := by
  have f : ∀ q : ℝ, -q ^ 2 / (4 * (1 / (4 * s ^ 2))) = -(q * s) ^ 2 := fun q => by field_simp
  simp only [rims, ends, inner8, Pair.qAll, List.zipWith_cons_cons, List.zipWith_nil_left, List.map_cons, List.map_nil, List.sum_cons, List.sum_nil, f, Bool.false_eq_true, if_true, if_false]
  ring

theorem ends_le (hD1 : 0 ≤ D1) (hH1 : 0 ≤ H1) (hD2 : 0 ≤ D2) (hH2 : 0 ≤ H2) {s : ℝ} (hs : 0 < s) :
    |ends (ι := Bool) (fun i => if i then D1 else D2) (fun i => if i then H1 else H2) false true s| ≤ 6 * (H1 * (H1 + 2 * D1)) * (H2 * (H2 + 2 * D2)) * s ^ 4 := by
  have hb : 0 < 1 / (4 * s ^ 2) := by positivity
  have h := (signed_integral hb (rims D1 H1 D2 H2)).2
  rw [rims_ends hs] at h
  have hm : |∫ k : ℝ, ((rims D1 H1 D2 H2).map fun x => x.1 * cos (x.2 * k)).sum * exp (-(1 / (4 * s ^ 2)) * k ^ 2)|
      ≤ ∫ k : ℝ, (H1 * (H1 + 2 * D1)) * (H2 * (H2 + 2 * D2)) / 2 * (k ^ 4 * exp (-(1 / (4 * s ^ 2)) * k ^ 2)) := by
    rw [← norm_eq_abs]
    refine norm_integral_le_of_norm_le ((pow_gauss_integrable 4 hb).const_mul _) (Eventually.of_forall fun k => ?_)
    rw [rims_cos, norm_eq_abs, abs_mul, abs_mul, abs_mul, abs_of_pos (exp_pos _), abs_two]
    have c1 := cos_sub_le D1 (D1 + H1) k
    have c2 := cos_sub_le D2 (D2 + H2) k
    have a1 : |D1 ^ 2 - (D1 + H1) ^ 2| = H1 * (H1 + 2 * D1) := by
      rw [abs_sub_comm, abs_of_nonneg (by nlinarith)]; ring
    have a2 : |D2 ^ 2 - (D2 + H2) ^ 2| = H2 * (H2 + 2 * D2) := by
      rw [abs_sub_comm, abs_of_nonneg (by nlinarith)]; ring
    rw [a1] at c1
    rw [a2] at c2
    have c := mul_le_mul c1 c2 (abs_nonneg _) (by positivity)
    rw [← mul_assoc]
    refine mul_le_mul_of_nonneg_right ?_ (exp_pos _).le
    nlinarith
  rw [h, integral_const_mul, fourth_moment hb, abs_mul, abs_of_nonneg (sqrt_nonneg _)] at hm
  have hr : 0 < √(π / (1 / (4 * s ^ 2))) := sqrt_pos.mpr (by have := pi_pos; positivity)
  have e : (H1 * (H1 + 2 * D1)) * (H2 * (H2 + 2 * D2)) / 2 * (3 / (4 * (1 / (4 * s ^ 2)) ^ 2) * √(π / (1 / (4 * s ^ 2))))
      = √(π / (1 / (4 * s ^ 2))) * (6 * (H1 * (H1 + 2 * D1)) * (H2 * (H2 + 2 * D2)) * s ^ 4) := by
    generalize √(π / (1 / (4 * s ^ 2))) = r
    field_simp
    ring
  rw [e] at hm
  exact le_of_mul_le_mul_left hm hr

theorem le_from_zero {f f' : ℝ → ℝ} (hc : Continuous f) (hd : ∀ s, 0 < s → HasDerivAt f (f' s) s) (hn : ∀ s, 0 < s → 0 ≤ f' s) {s : ℝ} (hs : 0 ≤ s) : f 0 ≤ f s := by
  have h : MonotoneOn f (Ici 0) := by
    refine monotoneOn_of_deriv_nonneg (convex_Ici 0) hc.continuousOn (fun x hx => ?_) fun x hx => ?_
    · rw [interior_Ici] at hx
      exact (hd x hx).differentiableAt.differentiableWithinAt
    · rw [interior_Ici] at hx
      rw [(hd x hx).deriv]
      exact hn x hx
  exact h (mem_Ici.mpr le_rfl) hs hs

theorem vert_le (hD1 : 0 ≤ D1) (hH1 : 0 ≤ H1) (hD2 : 0 ≤ D2) (hH2 : 0 ≤ H2) {s : ℝ} (hs : 0 ≤ s) :
    |Pair.vert ⟨0, H1, D1, H2, D2⟩ s| ≤ 2 * (H1 * (H1 + 2 * D1)) * (H2 * (H2 + 2 * D2)) / √π * s ^ 3 := by
  obtain ⟨V, hV⟩ : ∃ V, V = vertOf (ι := Bool) (fun i => if i then D1 else D2) (fun i => if i then H1 else H2) false true := ⟨_, rfl⟩
  have e : Pair.vert ⟨0, H1, D1, H2, D2⟩ s = V s := by rw [hV]; rfl
  have hp := sqrt_pi_pos
  obtain ⟨C, hC⟩ : ∃ C, C = 2 * (H1 * (H1 + 2 * D1)) * (H2 * (H2 + 2 * D2)) / √π := ⟨_, rfl⟩
  have hc : Continuous V := by rw [hV]; exact vertOf_continuous _ _ _ _
  have h0 : V 0 = 0 := by rw [hV]; exact vertOf_zero _ _ _ _
  have hd : ∀ s, 0 < s → HasDerivAt V (ends (ι := Bool) (fun i => if i then D1 else D2) (fun i => if i then H1 else H2) false true s / (√π * s ^ 2)) s := fun s hs => by
    rw [hV]; exact vertOf_deriv _ _ _ _ hs.ne'
  have hb : ∀ s, 0 < s → |ends (ι := Bool) (fun i => if i then D1 else D2) (fun i => if i then H1 else H2) false true s / (√π * s ^ 2)| ≤ C * (3 * s ^ 2) := fun s hs => by
    rw [abs_div, abs_of_pos (show 0 < √π * s ^ 2 by positivity), div_le_iff₀ (by positivity)]
    refine (ends_le hD1 hH1 hD2 hH2 hs).trans (le_of_eq ?_)
    rw [hC]
    field_simp
    ring
  have cube : ∀ s : ℝ, HasDerivAt (fun s : ℝ => C * s ^ 3) (C * (3 * s ^ 2)) s := fun s => by
    have := (hasDerivAt_pow 3 s).const_mul C
    refine this.congr_deriv ?_
    norm_num
  have up := le_from_zero (f := fun s => C * s ^ 3 - V s) (by fun_prop) (fun s hs => (cube s).sub (hd s hs)) (fun s hs => by linarith [(abs_le.mp (hb s hs)).2]) hs
  have lo := le_from_zero (f := fun s => C * s ^ 3 + V s) (by fun_prop) (fun s hs => (cube s).add (hd s hs)) (fun s hs => by linarith [(abs_le.mp (hb s hs)).1]) hs
  beta_reduce at up lo
  rw [h0] at up lo
  norm_num at up lo
  rw [e, ← hC, abs_le]
  constructor <;> linarith

/-! ### Property -/

theorem settle {alpha t : ℝ} (ha : 0 < alpha) (ht : 0 < t) {g : Pair} (hg : g.Ok) (hD1 : 0 ≤ g.D1) (hD2 : 0 ≤ g.D2) :
    |steady g true true - fls t alpha g true true| ≤ g.H1 * (g.H1 + 2 * g.D1) * (g.H2 + 2 * g.D2) / (24 * √π * (alpha * t * √(alpha * t))) := by
  have hl := lower_pos ha ht
  have h2 := hg.H2
  have h1 := hg.H1
  have hp := sqrt_pi_pos
  have hq := quad_tail (fun a h => integrand_integrableOn hg true true h) le_rfl hl.le
  rw [steady_eq hg, fls, ← mul_sub, ← hq, add_sub_cancel_left, abs_mul, abs_of_pos (show 0 < 0.5 / g.H2 by positivity)]
  obtain ⟨C, hC⟩ : ∃ C, C = 2 * (g.H1 * (g.H1 + 2 * g.D1)) * (g.H2 * (g.H2 + 2 * g.D2)) / √π := ⟨_, rfl⟩
  have hi : |quad (integrand g true true) 0 (some (lower alpha t))| ≤ ∫ s in (0 : ℝ)..lower alpha t, C * s ^ 2 := by
    rw [← norm_eq_abs]
    refine intervalIntegral.norm_integral_le_of_norm_le hl.le ?_ ((by fun_prop : Continuous fun s : ℝ => C * s ^ 2).intervalIntegrable _ _)
    refine Eventually.of_forall fun s hs => ?_
    have h0 : 0 < s := hs.1
    rw [integrand_vert g h0.ne', norm_eq_abs, abs_div, abs_mul, abs_of_pos (exp_pos _), abs_of_pos h0, div_le_iff₀ h0]
    have hv : |g.vert s| ≤ C * s ^ 3 := by rw [hC]; exact vert_le hD1 h1 hD2 h2.le h0.le
    have he : exp (-g.dis ^ 2 * s ^ 2) ≤ 1 := exp_le_one_iff.mpr (by nlinarith [mul_nonneg (sq_nonneg g.dis) (sq_nonneg s)])
    calc exp (-g.dis ^ 2 * s ^ 2) * |g.vert s| ≤ 1 * |g.vert s| := mul_le_mul_of_nonneg_right he (abs_nonneg _)
      _ ≤ C * s ^ 3 := by rw [one_mul]; exact hv
      _ = C * s ^ 2 * s := by ring
  have e : ∫ s in (0 : ℝ)..lower alpha t, C * s ^ 2 = C * (lower alpha t ^ 3 / 3) := by
    rw [intervalIntegral.integral_const_mul, integral_pow]
    norm_num
  rw [e] at hi
  refine (mul_le_mul_of_nonneg_left hi (by positivity)).trans (le_of_eq ?_)
  have l3 : lower alpha t ^ 3 = 1 / (8 * (alpha * t * √(alpha * t))) := by
    have : lower alpha t = 1 / (2 * √(alpha * t)) := by
      unfold lower
      rw [mul_assoc, sqrt_mul (by norm_num : (0 : ℝ) ≤ 4) (alpha * t), show √(4 : ℝ) = 2 by rw [show (4 : ℝ) = 2 ^ 2 by norm_num, sqrt_sq (by norm_num)]]
    rw [show lower alpha t ^ 3 = lower alpha t ^ 2 * lower alpha t by ring, lower_sq ha ht, this]
    field_simp
    norm_num
  rw [l3, hC]
  have : √(alpha * t) ≠ 0 := (sqrt_pos.mpr (by positivity)).ne'
  field_simp
  ring

/-- **C132**.  Two vertical boreholes, or one and the same. -/
theorem settles {alpha t : ℝ} (ha : 0 < alpha) (ht : 0 < t) (b1 b2 : Bore.Borehole) (hr : 0 < b1.rb) (h1 : 0 < b1.H) (h2 : 0 < b2.H) (hD1 : 0 ≤ b1.D) (hD2 : 0 ≤ b2.D) :
    0 < steady (pairOf b1 b2) true true - fls t alpha (pairOf b1 b2) true true ∧
      steady (pairOf b1 b2) true true - fls t alpha (pairOf b1 b2) true true
        ≤ b1.H * (b1.H + 2 * b1.D) * (b2.H + 2 * b2.D) / (24 * √π * (alpha * t * √(alpha * t))) := by
  have ok : (pairOf b1 b2).Ok := ⟨hr.trans_le (le_max_left _ _), h1.le, h2⟩
  exact ⟨sub_pos.mpr (lt_steady ha ok h1 hD1 hD2 ht), (le_abs_self _).trans (settle ha ht ok hD1 hD2)⟩

/-- Example: boreholes of 100 m and 150 m, 5 m apart, after `3e10` seconds. -/
example := settles (alpha := 1 / 10 ^ 6) (t := 3 * 10 ^ 10) (by norm_num) (by norm_num) ⟨100, 4, 0.075, 0, 0, 0, 0⟩ ⟨150, 2, 0.075, 5, 0, 0, 0⟩
  (by norm_num) (by norm_num) (by norm_num) (by norm_num) (by norm_num)

/-- … the bound is below 0.11 there. -/
example : (100 : ℝ) * (100 + 2 * 4) * (150 + 2 * 2) / (24 * √π * (1 / 10 ^ 6 * (3 * 10 ^ 10) * √(1 / 10 ^ 6 * (3 * 10 ^ 10)))) < 0.11 := by
  have h1 : (1.7 : ℝ) < √π := by
    rw [lt_sqrt (by norm_num)]
    nlinarith [pi_gt_three]
  have h2 : (170 : ℝ) < √(1 / 10 ^ 6 * (3 * 10 ^ 10)) := by
    rw [lt_sqrt (by norm_num)]
    norm_num
  rw [div_lt_iff₀ (by positivity)]
  have := mul_lt_mul'' h1 h2 (by norm_num) (by norm_num)
  norm_num at this ⊢
  nlinarith

end Verif.FLS
