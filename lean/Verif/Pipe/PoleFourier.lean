import Verif.Pipe.PoleSimProps
import Mathlib.Data.Nat.Choose.Sum

/-!
# Fourier coefficients on the unit circle of the terms of the multipole field
-/

noncomputable section

namespace Verif.Pipe.Pole

open ComplexConjugate Metric Real

/-- Harmonic `k` of `f` on the unit circle. -/
def har (f : ℂ → ℂ) (k : ℕ) : ℂ := circleAverage (fun x => f x * (x ^ k)⁻¹) 0 1

/-- The unit circle. -/
theorem unit_ne {x : ℂ} (hx : x ∈ sphere (0 : ℂ) |(1 : ℝ)|) : ‖x‖ = 1 ∧ x ≠ 0 ∧ x⁻¹ = conj x := by
  rw [abs_one, mem_sphere_iff_norm, sub_zero] at hx
  have h0 : x ≠ 0 := by intro hc; rw [hc, norm_zero] at hx; exact zero_ne_one hx
  have h1 : x * conj x = 1 := by rw [Complex.mul_conj, Complex.normSq_eq_norm_sq, hx]; norm_num
  exact ⟨hx, h0, (eq_inv_of_mul_eq_one_right h1).symm⟩

/-- Continuous on the unit circle. -/
def Cc (f : ℂ → ℂ) : Prop := ContinuousOn f (sphere (0 : ℂ) |(1 : ℝ)|)

/-- Differentiable on the closed unit disc. -/
def Hd (f : ℂ → ℂ) : Prop := ∀ x ∈ closedBall (0 : ℂ) |(1 : ℝ)|, DifferentiableAt ℂ f x

theorem Hd.cc {f : ℂ → ℂ} (hf : Hd f) : Cc f := fun x hx => (hf x (sphere_subset_closedBall hx)).continuousAt.continuousWithinAt

theorem Cc.har_int {f : ℂ → ℂ} (hf : Cc f) (k : ℕ) : CircleIntegrable (fun x => f x * (x ^ k)⁻¹) 0 1 := by
  refine ContinuousOn.circleIntegrable' (ContinuousOn.mul hf (ContinuousOn.inv₀ (by fun_prop) fun x hx => pow_ne_zero _ (unit_ne hx).2.1))

theorem har_congr {f g : ℂ → ℂ} (h : ∀ x, ‖x‖ = 1 → f x = g x) (k : ℕ) : har f k = har g k :=
  circleAverage_congr_sphere fun x hx => by
    show f x * _ = g x * _
    rw [h x (unit_ne hx).1]

theorem har_add {f g : ℂ → ℂ} (hf : Cc f) (hg : Cc g) (k : ℕ) : har (fun x => f x + g x) k = har f k + har g k := by
  unfold har
  rw [← circleAverage_fun_add (hf.har_int k) (hg.har_int k)]
  simp only [add_mul]

theorem har_const_mul (a : ℂ) (f : ℂ → ℂ) (k : ℕ) : har (fun x => a * f x) k = a * har f k := by
  unfold har
  have := circleAverage_fun_smul (f := fun x => f x * (x ^ k)⁻¹) (a := a) (c := 0) (R := 1)
  simp only [smul_eq_mul] at this
  rw [← this]
  simp only [mul_assoc]

theorem har_sum {ι : Type*} (S : Finset ι) {f : ι → ℂ → ℂ} (hf : ∀ i ∈ S, Cc (f i)) (k : ℕ) : har (fun x => ∑ i ∈ S, f i x) k = ∑ i ∈ S, har (f i) k := by
  unfold har
  rw [← circleAverage_fun_sum fun i hi => (hf i hi).har_int k]
  simp only [Finset.sum_mul]

theorem har_zero {f : ℂ → ℂ} (hf : Hd f) : har f 0 = f 0 := by
  unfold har
  simp only [pow_zero, inv_one, mul_one]
  refine DiffContOnCl.circleAverage ⟨fun x hx => (hf x (ball_subset_closedBall hx)).differentiableWithinAt, fun x hx => ?_⟩
  exact (hf x (closure_ball_subset_closedBall hx)).continuousAt.continuousWithinAt

theorem har_shift (g : ℂ → ℂ) (k : ℕ) : har (fun x => x * g x) (k + 1) = har g k :=
  circleAverage_congr_sphere fun x hx => by
    have h0 := (unit_ne hx).2.1
    show x * g x * _ = g x * _
    rw [pow_succ]
    field_simp

theorem har_shift_zero {g : ℂ → ℂ} (hg : Hd g) : har (fun x => x * g x) 0 = 0 := by
  have hd : Hd (fun x => x * g x) := fun x hx => differentiableAt_id.mul (hg x hx)
  rw [har_zero hd, zero_mul]

/-- Average of the conjugate. -/
theorem average_conj {f : ℂ → ℂ} (hf : Cc f) : circleAverage (fun x => conj (f x)) 0 1 = conj (circleAverage f 0 1) := by
  have := (Complex.conjCLE : ℂ →L[ℝ] ℂ).circleAverage_comp_comm (ContinuousOn.circleIntegrable' hf)
  exact this

/-- Conjugates of holomorphic functions have no positive harmonics. -/
theorem har_conj {f : ℂ → ℂ} (hf : Hd f) (k : ℕ) : har (fun x => conj (f x)) (k + 1) = 0 := by
  have e : har (fun x => conj (f x)) (k + 1) = circleAverage (fun x => conj (x ^ (k + 1) * f x)) 0 1 := by
    refine circleAverage_congr_sphere fun x hx => ?_
    show conj (f x) * _ = conj (x ^ (k + 1) * f x)
    rw [← inv_pow, (unit_ne hx).2.2, map_mul, map_pow]
    ring
  have hd : Hd (fun x => x ^ (k + 1) * f x) := fun x hx => (differentiableAt_id.pow _).mul (hf x hx)
  rw [e, average_conj hd.cc]
  have := har_zero hd
  unfold har at this
  simp only [pow_zero, inv_one, mul_one] at this
  rw [this, zero_pow (by omega), zero_mul, map_zero]

theorem har_one (k : ℕ) : har (fun _ => 1) (k + 1) = 0 := by
  have := har_conj (f := fun _ => 1) (fun x _ => differentiableAt_const _) k
  simpa using this

theorem Hd.const (a : ℂ) : Hd (fun _ => a) := fun _ _ => differentiableAt_const _

theorem har_const (a : ℂ) (k : ℕ) : har (fun _ => a) (k + 1) = 0 := by
  have := har_const_mul a (fun _ => 1) (k + 1)
  simp only [mul_one] at this
  rw [this, har_one, mul_zero]

/-- Harmonics of the radial derivative. -/
theorem har_deriv {f f' : ℂ → ℂ} (hf : ∀ x, ‖x‖ = 1 → HasDerivAt f (f' x) x) (hc : Cc f') (k : ℕ) : har (fun x => x * f' x) k = k * har f k := by
  have hfc : Cc f := fun x hx => (hf x (unit_ne hx).1).continuousAt.continuousWithinAt
  have h1 : har (fun x => x * f' x + (-(k : ℂ)) * f x) k = 0 := by
    unfold har
    rw [circleAverage_eq_circleIntegral one_ne_zero]
    have e : (∮ x in C(0, 1), (x - 0)⁻¹ • ((x * f' x + (-(k : ℂ)) * f x) * (x ^ k)⁻¹)) = 0 := by
      refine circleIntegral.integral_eq_zero_of_hasDerivWithinAt (f := fun x => f x * (x ^ k)⁻¹) zero_le_one fun x hx => ?_
      have hx1 : ‖x‖ = 1 := by rwa [mem_sphere_iff_norm, sub_zero] at hx
      have h0 : x ≠ 0 := by intro hc; rw [hc, norm_zero] at hx1; exact zero_ne_one hx1
      refine HasDerivAt.hasDerivWithinAt ?_
      have hp : HasDerivAt (fun x : ℂ => (x ^ k)⁻¹) (-(k * x ^ (k - 1)) / (x ^ k) ^ 2) x := (hasDerivAt_pow k x).inv (pow_ne_zero _ h0)
      refine ((hf x hx1).mul hp).congr_deriv ?_
      rw [sub_zero, smul_eq_mul]
      rcases Nat.eq_zero_or_pos k with hk | hk
      · subst hk; simp; field_simp
      · obtain ⟨l, rfl⟩ : ∃ l, k = l + 1 := ⟨k - 1, by omega⟩
        rw [Nat.add_sub_cancel]
        field_simp
        ring
    rw [e, smul_zero]
  have c1 : Cc (fun x => x * f' x) := ContinuousOn.mul continuousOn_id hc
  have c2 : Cc (fun x => (-(k : ℂ)) * f x) := ContinuousOn.mul continuousOn_const hfc
  rw [har_add c1 c2, har_const_mul] at h1
  linear_combination h1

/-! ### Terms -/

theorem one_sub_ne {τ x : ℂ} (hτ : ‖τ‖ < 1) (hx : x ∈ closedBall (0 : ℂ) |(1 : ℝ)|) : 1 - x * τ ≠ 0 ∧ 1 - x * τ ∈ Complex.slitPlane := by
  rw [abs_one, mem_closedBall, dist_zero_right] at hx
  have h1 : ‖x * τ‖ < 1 := by
    rw [norm_mul]
    have := norm_nonneg x; have := norm_nonneg τ
    nlinarith
  have h2 : 1 - x * τ ∈ Complex.slitPlane := by
    left
    have := Complex.re_le_norm (x * τ)
    rw [Complex.sub_re, Complex.one_re]
    linarith
  exact ⟨Complex.slitPlane_ne_zero h2, h2⟩

/-- Geometric term. -/
def geo (τ : ℂ) (j : ℕ) (x : ℂ) : ℂ := ((1 - x * τ) ^ (j + 1))⁻¹

theorem geo_hd {τ : ℂ} (hτ : ‖τ‖ < 1) (j : ℕ) : Hd (geo τ j) := fun x hx => by
  have := pow_ne_zero (j + 1) (one_sub_ne hτ hx).1
  unfold geo
  fun_prop (disch := assumption)

theorem har_geo {τ : ℂ} (hτ : ‖τ‖ < 1) (j k : ℕ) : har (geo τ j) k = ((j + k).choose j : ℂ) * τ ^ k := by
  -- both recursions
  have hz : ∀ j, har (geo τ j) 0 = 1 := fun j => by
    rw [har_zero (geo_hd hτ j)]; simp [geo]
  have hrec : ∀ (g : ℂ → ℂ) j k, (∀ x, ‖x‖ = 1 → g x = geo τ j x * (1 - x * τ)) → har g (k + 1) = har (geo τ j) (k + 1) - τ * har (geo τ j) k := by
    intro g j k h
    have e : har g (k + 1) = har (fun x => geo τ j x + (-τ) * (x * geo τ j x)) (k + 1) := har_congr (fun x hx => by rw [h x hx]; ring) _
    have c1 := (geo_hd hτ j).cc
    have c2 : Cc (fun x => (-τ) * (x * geo τ j x)) := ContinuousOn.mul continuousOn_const (ContinuousOn.mul continuousOn_id c1)
    rw [e, har_add c1 c2, har_const_mul, har_shift]
    ring
  have hcan : ∀ j x, ‖x‖ = 1 → geo τ (j + 1) x * (1 - x * τ) = geo τ j x := fun j x hx => by
    have := (one_sub_ne hτ (x := x) (by rw [abs_one, mem_closedBall, dist_zero_right, hx])).1
    unfold geo
    field_simp
    ring
  have hcan0 : ∀ x, ‖x‖ = 1 → geo τ 0 x * (1 - x * τ) = 1 := fun x hx => by
    have := (one_sub_ne hτ (x := x) (by rw [abs_one, mem_closedBall, dist_zero_right, hx])).1
    unfold geo
    field_simp
    ring
  induction j generalizing k with
  | zero =>
    induction k with
    | zero => simp [hz]
    | succ k ih =>
      have := hrec (fun _ => 1) 0 k fun x hx => (hcan0 x hx).symm
      rw [har_one, ih] at this
      simp only [Nat.choose_zero_right, Nat.cast_one, one_mul] at this ⊢
      rw [pow_succ]
      linear_combination -this
  | succ j ihj =>
    induction k with
    | zero => simp [hz]
    | succ k ih =>
      have := hrec (geo τ j) (j + 1) k fun x hx => (hcan j x hx).symm
      rw [ihj, ih] at this
      have hch : ((j + 1 + (k + 1)).choose (j + 1) : ℂ) = ((j + (k + 1)).choose j : ℂ) + ((j + 1 + k).choose (j + 1) : ℂ) := by
        have h1 : j + 1 + (k + 1) = (j + (k + 1)) + 1 := by ring
        have h2 : j + 1 + k = j + (k + 1) := by ring
        rw [h1, Nat.choose_succ_succ, h2]
        push_cast; ring
      rw [hch]
      rw [pow_succ] at this ⊢
      linear_combination -this

/-- Logarithmic term. -/
def lg (τ : ℂ) (x : ℂ) : ℂ := Complex.log (1 - x * τ)

theorem lg_deriv {τ : ℂ} (hτ : ‖τ‖ < 1) {x : ℂ} (hx : x ∈ closedBall (0 : ℂ) |(1 : ℝ)|) : HasDerivAt (lg τ) (-τ * geo τ 0 x) x := by
  have h := one_sub_ne hτ hx
  have h1 : HasDerivAt (fun x : ℂ => 1 - x * τ) (-τ) x := by
    have := ((hasDerivAt_id x).mul_const τ).const_sub 1
    simpa using this
  refine (h1.clog h.2).congr_deriv ?_
  unfold geo
  rw [zero_add, pow_one, div_eq_mul_inv]

theorem lg_hd {τ : ℂ} (hτ : ‖τ‖ < 1) : Hd (lg τ) := fun _ hx => (lg_deriv hτ hx).differentiableAt

theorem har_lg {τ : ℂ} (hτ : ‖τ‖ < 1) (k : ℕ) : har (lg τ) (k + 1) = -(τ ^ (k + 1) / (k + 1)) := by
  have h1 := har_deriv (f := lg τ) (f' := fun x => -τ * geo τ 0 x) (fun x hx => lg_deriv hτ (by rw [abs_one, mem_closedBall, dist_zero_right, hx]))
    (ContinuousOn.mul continuousOn_const (geo_hd hτ 0).cc) (k + 1)
  rw [har_shift, har_const_mul, har_geo hτ] at h1
  have hk : ((k : ℂ) + 1) ≠ 0 := by exact_mod_cast Nat.succ_ne_zero k
  simp only [zero_add, Nat.choose_zero_right, Nat.cast_one, one_mul] at h1
  push_cast at h1
  field_simp
  rw [pow_succ]
  linear_combination -h1

/-- Repeated shift. -/
theorem har_pow_shift {g : ℂ → ℂ} (hg : Hd g) (p k : ℕ) : har (fun x => x ^ p * g x) k = if p ≤ k then har g (k - p) else 0 := by
  induction p generalizing k with
  | zero => simp
  | succ p ih =>
    have hd : Hd (fun x => x ^ p * g x) := fun x hx => (differentiableAt_id.pow _).mul (hg x hx)
    have e : (fun x => x ^ (p + 1) * g x) = fun x => x * (x ^ p * g x) := by funext x; ring
    rw [e]
    cases k with
    | zero => rw [har_shift_zero hd, if_neg (by omega)]
    | succ k => rw [har_shift, ih]; simp

/-- Image multipoles. -/
theorem har_bin {τ : ℂ} (hτ : ‖τ‖ < 1) (z r : ℂ) (N j k : ℕ) :
    har (fun x => (z + r * x) ^ N * geo τ j x) k =
      ∑ p ∈ Finset.range (min k N + 1), (N.choose p : ℂ) * z ^ (N - p) * r ^ p * (((j + (k - p)).choose j : ℂ) * τ ^ (k - p)) := by
  have e : (fun x => (z + r * x) ^ N * geo τ j x) = fun x => ∑ p ∈ Finset.range (N + 1), ((N.choose p : ℂ) * z ^ (N - p) * r ^ p) * (x ^ p * geo τ j x) := by
    funext x
    rw [add_comm z, add_pow, Finset.sum_mul]
    refine Finset.sum_congr rfl fun p _ => ?_
    rw [mul_pow]; ring
  have hc : ∀ p ∈ Finset.range (N + 1), Cc (fun x => ((N.choose p : ℂ) * z ^ (N - p) * r ^ p) * (x ^ p * geo τ j x)) := fun p _ =>
    ContinuousOn.mul continuousOn_const (ContinuousOn.mul (by fun_prop) (geo_hd hτ j).cc)
  rw [e, har_sum _ hc]
  have e2 : ∀ p, har (fun x => ((N.choose p : ℂ) * z ^ (N - p) * r ^ p) * (x ^ p * geo τ j x)) k =
      if p ≤ k then (N.choose p : ℂ) * z ^ (N - p) * r ^ p * (((j + (k - p)).choose j : ℂ) * τ ^ (k - p)) else 0 := fun p => by
    rw [har_const_mul, har_pow_shift (geo_hd hτ j), har_geo hτ]
    split_ifs <;> simp
  simp only [e2]
  rw [← Finset.sum_filter]
  refine Finset.sum_congr ?_ fun _ _ => rfl
  ext p
  simp only [Finset.mem_filter, Finset.mem_range]
  omega

/-! ### Real parts -/

theorem har_re_zero {f : ℂ → ℂ} (hf : Hd f) : har (fun x => ((f x).re : ℂ)) 0 = (f 0).re := by
  unfold har
  simp only [pow_zero, inv_one, mul_one]
  have hg : DifferentiableOn ℂ f (closedBall 0 |(1 : ℝ)|) := fun x hx => (hf x hx).differentiableWithinAt
  have h1 := average_re hg
  have h2 := Complex.ofRealCLM.circleAverage_comp_comm (f := fun x => (f x).re) (c := 0) (R := 1)
    (ContinuousOn.circleIntegrable' (Complex.continuous_re.comp_continuousOn (hg.continuousOn.mono sphere_subset_closedBall)))
  rw [h1] at h2
  exact h2

theorem har_re {f : ℂ → ℂ} (hf : Hd f) (k : ℕ) : har (fun x => ((f x).re : ℂ)) (k + 1) = har f (k + 1) / 2 := by
  have e : har (fun x => ((f x).re : ℂ)) (k + 1) = har (fun x => (1 / 2) * f x + (1 / 2) * conj (f x)) (k + 1) := by
    refine har_congr (fun x _ => ?_) _
    rw [Complex.re_eq_add_conj]; ring
  have hcc : Cc (fun x => conj (f x)) := Complex.continuous_conj.comp_continuousOn hf.cc
  have c1 : Cc (fun x => (1 / 2) * f x) := ContinuousOn.mul continuousOn_const hf.cc
  have c2 : Cc (fun x => (1 / 2) * conj (f x)) := ContinuousOn.mul continuousOn_const hcc
  rw [e, har_add c1 c2, har_const_mul, har_const_mul, har_conj hf]
  ring

/-- Harmonics of the singular terms. -/
theorem har_sing (P : ℂ) (j k : ℕ) : har (fun x => ((P * (x⁻¹) ^ (j + 1)).re : ℂ)) (k + 1) = if j = k then conj P / 2 else 0 := by
  have e : har (fun x => ((P * (x⁻¹) ^ (j + 1)).re : ℂ)) (k + 1) = har (fun x => ((conj P * x ^ (j + 1)).re : ℂ)) (k + 1) := by
    refine har_congr (fun x hx => ?_) _
    have := (unit_ne (x := x) (by rw [abs_one, mem_sphere_iff_norm, sub_zero, hx])).2.2
    rw [this, ← Complex.conj_re (P * _), map_mul, map_pow, Complex.conj_conj]
  have hd : Hd (fun x => conj P * x ^ (j + 1)) := fun x _ => by fun_prop
  rw [e, har_re hd, har_const_mul]
  have e2 : har (fun x => x ^ (j + 1)) (k + 1) = if j = k then 1 else 0 := by
    have := har_pow_shift (g := fun _ => 1) (Hd.const 1) (j + 1) (k + 1)
    simp only [mul_one] at this
    rw [this]
    by_cases hjk : j = k
    · subst hjk
      rw [if_pos le_rfl, if_pos rfl, Nat.sub_self, har_zero (Hd.const 1)]
    · rw [if_neg hjk]
      split_ifs with hle
      · obtain ⟨d, hd⟩ : ∃ d, k + 1 - (j + 1) = d + 1 := ⟨k - j - 1, by omega⟩
        rw [hd, har_one]
      · rfl
  rw [e2]
  split_ifs <;> simp

theorem har_sing_zero (P : ℂ) (j : ℕ) : har (fun x => ((P * (x⁻¹) ^ (j + 1)).re : ℂ)) 0 = 0 := by
  have e : har (fun x => ((P * (x⁻¹) ^ (j + 1)).re : ℂ)) 0 = har (fun x => ((conj P * x ^ (j + 1)).re : ℂ)) 0 := by
    refine har_congr (fun x hx => ?_) _
    have := (unit_ne (x := x) (by rw [abs_one, mem_sphere_iff_norm, sub_zero, hx])).2.2
    rw [this, ← Complex.conj_re (P * _), map_mul, map_pow, Complex.conj_conj]
  have hd : Hd (fun x => conj P * x ^ (j + 1)) := fun x _ => by fun_prop
  rw [e, har_re_zero hd]
  simp

end Verif.Pipe.Pole
