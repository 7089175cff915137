import Verif.Pipe.FlowProps
import Mathlib.Analysis.SpecialFunctions.Sqrt

/-!
# Analysis for property C149: the effective resistance of a symmetric U-tube as a function of the resistance of the pipes
-/

noncomputable section

namespace Verif.Pipe

open Real Set

/-- `y cosh y > sinh y`. -/
theorem sinh_lt_mul_cosh {y : ℝ} (hy : 0 < y) : sinh y < y * cosh y := by
  have h := one_lt_mul_coth hy
  unfold coth at h
  rw [← mul_div_assoc, lt_div_iff₀ (sinh_pos_iff.mpr hy)] at h
  linarith

/-- `sinh y / y` increases. -/
theorem sinh_div_lt {y z : ℝ} (hy : 0 < y) (h : y < z) : sinh y * z < sinh z * y := by
  have hder : ∀ x ∈ Ioi (0 : ℝ), HasDerivAt (fun x => sinh x / x) ((cosh x * x - sinh x * 1) / x ^ 2) x := fun x hx =>
    (hasDerivAt_sinh x).div (hasDerivAt_id x) (ne_of_gt hx)
  have hmono : StrictMonoOn (fun x => sinh x / x) (Ioi 0) := by
    apply strictMonoOn_of_deriv_pos (convex_Ioi 0)
    · exact fun x hx => (hder x hx).continuousAt.continuousWithinAt
    · intro x hx
      rw [interior_Ioi] at hx
      rw [(hder x hx).deriv]
      have h1 := sinh_lt_mul_cosh hx
      have h3 : (0 : ℝ) < x := hx
      have : 0 < cosh x * x - sinh x * 1 := by linarith
      positivity
  have := hmono hy (hy.trans h) h
  simp only at this
  rwa [div_lt_div_iff₀ hy (hy.trans h)] at this

/-- Specification: the number of transfer units of a symmetric U-tube of matrix `[[A, b], [b, A]]`; `K` is the length divided by the heat capacity rate. -/
def units (b K A : ℝ) : ℝ := K / √(A ^ 2 - b ^ 2)

/-- Specification: its effective resistance. -/
def symEff (b K A : ℝ) : ℝ := (A + b) / 2 * (units b K A * coth (units b K A))

variable {b K : ℝ}

theorem sq_pos_of {A : ℝ} (h : |b| < A) : 0 < A ^ 2 - b ^ 2 := by
  have h0 := abs_nonneg b
  rw [← sq_abs b]; nlinarith

theorem units_pos (hK : 0 < K) {A : ℝ} (h : |b| < A) : 0 < units b K A := div_pos hK (sqrt_pos.mpr (sq_pos_of h))

theorem units_lt (hK : 0 < K) {A A' : ℝ} (h : |b| < A) (hA : A < A') : units b K A' < units b K A := by
  unfold units
  have h0 := abs_nonneg b
  apply div_lt_div_of_pos_left hK (sqrt_pos.mpr (sq_pos_of h))
  exact sqrt_lt_sqrt (sq_pos_of h).le (by nlinarith)

theorem units_deriv {A : ℝ} (h : |b| < A) : HasDerivAt (units b K) (-(units b K A * A / (A ^ 2 - b ^ 2))) A := by
  have hs := sq_pos_of h
  have hr := sqrt_pos.mpr hs
  have h1 : HasDerivAt (fun A : ℝ => A ^ 2 - b ^ 2) (2 * A) A := by
    simpa using ((hasDerivAt_pow 2 A).sub_const (b ^ 2))
  have h2 := h1.sqrt hs.ne'
  have h3 := (hasDerivAt_const A K).div h2 hr.ne'
  refine HasDerivAt.congr_deriv h3 ?_
  unfold units
  have e : √(A ^ 2 - b ^ 2) ^ 2 = A ^ 2 - b ^ 2 := sq_sqrt hs.le
  rw [e]
  field_simp
  ring

theorem symEff_deriv (hK : 0 < K) {A : ℝ} (h : |b| < A) :
    HasDerivAt (symEff b K) (units b K A * (2 * units b K A * A - b * sinh (2 * units b K A)) / (4 * (A - b) * sinh (units b K A) ^ 2)) A := by
  have hy := units_pos hK h
  have hs := sq_pos_of h
  have hsh : sinh (units b K A) ≠ 0 := (sinh_pos_iff.mpr hy).ne'
  have hc : HasDerivAt (fun z => z * coth z) ((sinh (units b K A) * cosh (units b K A) - units b K A) / sinh (units b K A) ^ 2) (units b K A) := by
    have := (hasDerivAt_id (units b K A)).mul ((hasDerivAt_cosh (units b K A)).div (hasDerivAt_sinh (units b K A)) hsh)
    refine HasDerivAt.congr_deriv this ?_
    have := cosh_sq (units b K A)
    simp only [id, Pi.div_apply]
    field_simp
    linear_combination -(units b K A) * this
  have h1 := HasDerivAt.comp A hc (units_deriv (K := K) h)
  have h2 : HasDerivAt (fun A : ℝ => (A + b) / 2) (1 / 2) A := ((hasDerivAt_id A).add_const b).div_const 2
  have h3 := h2.mul h1
  refine HasDerivAt.congr_deriv h3 ?_
  obtain ⟨y, hyd⟩ : ∃ y, y = units b K A := ⟨_, rfl⟩
  rw [Function.comp_apply, ← hyd] at *
  have hb : A - b ≠ 0 := by have := le_abs_self b; linarith
  have hb' : A + b ≠ 0 := by have := neg_abs_le b; linarith
  have e : A ^ 2 - b ^ 2 = (A - b) * (A + b) := by ring
  rw [e, sinh_two_mul]
  unfold coth
  have := cosh_sq y
  field_simp
  ring

/-- The effective resistance increases with `A` above a point where `sinh (2η) / (2η)` is at most `A / b`. -/
theorem symEff_lt (hK : 0 < K) {A A' : ℝ} (h : |b| < A) (hA : A < A') (hc : b * sinh (2 * units b K A) ≤ 2 * units b K A * A) : symEff b K A < symEff b K A' := by
  have hmono : StrictMonoOn (symEff b K) (Icc A A') := by
    apply strictMonoOn_of_deriv_pos (convex_Icc A A')
    · exact fun x hx => (symEff_deriv hK (h.trans_le hx.1)).continuousAt.continuousWithinAt
    · intro x hx
      rw [interior_Icc] at hx
      have hx' : |b| < x := h.trans hx.1
      rw [(symEff_deriv hK hx').deriv]
      have hu := units_pos hK hx'
      have hul := units_lt hK h hx.1
      have hs := sinh_pos_iff.mpr hu
      have hbx : 0 < x - b := by have := le_abs_self b; linarith
      have hx0 : 0 < x := (abs_nonneg b).trans_lt hx'
      have key : 0 < 2 * units b K x * x - b * sinh (2 * units b K x) := by
        rcases le_or_gt b 0 with hb | hb
        · have : 0 < sinh (2 * units b K x) := sinh_pos_iff.mpr (by linarith)
          nlinarith [mul_pos hu hx0]
        · have h1 := sinh_div_lt (y := 2 * units b K x) (z := 2 * units b K A) (by linarith) (by linarith)
          have hUA := units_pos hK h
          have h2 : b * (sinh (2 * units b K x) * (2 * units b K A)) < 2 * units b K A * A * (2 * units b K x) :=
            (mul_lt_mul_of_pos_left h1 hb).trans_le (by nlinarith)
          have h3 : b * sinh (2 * units b K x) < A * (2 * units b K x) := by
            by_contra hcon
            push Not at hcon
            nlinarith
          nlinarith [hx.1]
      positivity
  exact hmono ⟨le_rfl, hA.le⟩ ⟨hA.le, le_rfl⟩ hA

/-- `coth y ≤ 1 + 1 / y`. -/
theorem coth_le {y : ℝ} (hy : 0 < y) : coth y ≤ 1 + 1 / y := by
  rw [coth_exp hy]
  have h1 : exp (-2 * y) ≤ 1 / (1 + 2 * y) := by
    rw [show -2 * y = -(2 * y) by ring, exp_neg, inv_eq_one_div]
    exact one_div_le_one_div_of_le (by linarith) (by linarith [add_one_le_exp (2 * y)])
  have h0 := exp_pos (-2 * y)
  have h2 : exp (-2 * y) < 1 := by rw [exp_lt_one_iff]; linarith
  rw [div_le_iff₀ (by linarith)]
  have h3 : exp (-2 * y) * (1 + 2 * y) ≤ 1 := by rwa [le_div_iff₀ (by linarith)] at h1
  have : (1 + 1 / y) * (1 - exp (-2 * y)) - (1 + exp (-2 * y)) = (1 - exp (-2 * y) * (1 + 2 * y)) / y := by field_simp; ring
  have h4 : 0 ≤ (1 - exp (-2 * y) * (1 + 2 * y)) / y := div_nonneg (by linarith) hy.le
  linarith

theorem one_lt_coth {y : ℝ} (hy : 0 < y) : 1 < coth y := by
  rw [coth_exp hy, lt_div_iff₀ (by have : exp (-2 * y) < 1 := by rw [exp_lt_one_iff]; linarith
                                   linarith)]
  linarith [exp_pos (-2 * y)]

/-- For long boreholes with `b > 0`, the effective resistance decreases with `A`. -/
theorem symEff_gt (hb : 0 < b) {A A' : ℝ} (h : b < A) (hA : A < A') : ∃ K0 : ℝ, ∀ K, K0 < K → 0 < K → symEff b K A' < symEff b K A := by
  have hA0 : 0 < A := hb.trans h
  have hA1 : 0 < A' := hA0.trans hA
  have hs := sq_pos_of (b := b) (A := A) (by rwa [abs_of_pos hb])
  have hs' := sq_pos_of (b := b) (A := A') (by rw [abs_of_pos hb]; linarith)
  have hr := sqrt_pos.mpr hs
  have hr' := sqrt_pos.mpr hs'
  obtain ⟨r, hrd⟩ : ∃ r, r = √(A ^ 2 - b ^ 2) := ⟨_, rfl⟩
  obtain ⟨r', hrd'⟩ : ∃ r, r = √(A' ^ 2 - b ^ 2) := ⟨_, rfl⟩
  have e : r ^ 2 = (A - b) * (A + b) := by rw [hrd, sq_sqrt hs.le]; ring
  have e' : r' ^ 2 = (A' - b) * (A' + b) := by rw [hrd', sq_sqrt hs'.le]; ring
  rw [← hrd] at hr
  rw [← hrd'] at hr'
  have hgap : (A' + b) / r' < (A + b) / r := by
    rw [div_lt_div_iff₀ hr' hr]
    apply lt_of_pow_lt_pow_left₀ 2 (by positivity)
    rw [mul_pow, mul_pow, e, e']
    have : 0 < (A + b) * (A' + b) := by positivity
    nlinarith [mul_pos this (mul_pos hb (sub_pos.mpr hA))]
  obtain ⟨δ, hδ⟩ : ∃ δ, δ = (A + b) / r - (A' + b) / r' := ⟨_, rfl⟩
  have hδ0 : 0 < δ := by rw [hδ]; linarith
  refine ⟨(A' + b) / δ, fun K hK0 hK => ?_⟩
  have hu : units b K A' = K / r' := by unfold units; rw [hrd']
  have hv : units b K A = K / r := by unfold units; rw [hrd]
  have h1 := coth_le (y := K / r') (by positivity)
  have h2 := one_lt_coth (y := K / r) (by positivity)
  unfold symEff
  rw [hu, hv]
  have h3 : (A' + b) / 2 * (K / r' * coth (K / r')) ≤ (A' + b) / 2 * (K / r' * (1 + 1 / (K / r'))) := by gcongr
  have h4 : (A + b) / 2 * (K / r * 1) < (A + b) / 2 * (K / r * coth (K / r)) := by gcongr
  refine h3.trans_lt (lt_trans ?_ h4)
  have h5 : A' + b < K * δ := by rwa [div_lt_iff₀ hδ0] at hK0
  have e1 : (A' + b) / 2 * (K / r' * (1 + 1 / (K / r'))) = (K * ((A' + b) / r') + (A' + b)) / 2 := by field_simp
  have e2 : (A + b) / 2 * (K / r * 1) = K * ((A + b) / r) / 2 := by field_simp
  rw [e1, e2]
  have : K * δ = K * ((A + b) / r) - K * ((A' + b) / r') := by rw [hδ]; ring
  linarith

end Verif.Pipe
