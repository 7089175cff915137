import Verif.FLS.Lemmas

/-!
# The integrals of the finite line source solution as integrals of point sources
-/

noncomputable section

namespace Verif.FLS

open Real MeasureTheory

/-- Integral over receiver (first variable) and source (second variable). -/
def rect (c e a b : ℝ) : Measure (ℝ × ℝ) := (volume.restrict (Set.Ioc c e)).prod (volume.restrict (Set.Ioc a b))

instance (c e a b : ℝ) : IsFiniteMeasure (rect c e a b) := by unfold rect; infer_instance

theorem rect_eq {F : ℝ × ℝ → ℝ} (hF : Continuous F) {c e a b : ℝ} (hce : c ≤ e) (hab : a ≤ b) :
    ∫ p, F p ∂(rect c e a b) = ∫ z in c..e, ∫ w in a..b, F (z, w) := by
  have hi : Integrable F (rect c e a b) := by
    unfold rect
    rw [Measure.prod_restrict]
    have : IntegrableOn F (Set.Icc c e ×ˢ Set.Icc a b) (volume.prod volume) :=
      hF.continuousOn.integrableOn_compact (isCompact_Icc.prod isCompact_Icc)
    exact this.mono_set (Set.prod_mono Set.Ioc_subset_Icc_self Set.Ioc_subset_Icc_self)
  unfold rect at hi ⊢
  rw [integral_prod _ hi, intervalIntegral.integral_of_le hce]
  simp only [intervalIntegral.integral_of_le hab]

section kernel
variable {d : ℝ} (hd : 0 < d) {x : ℝ × ℝ → ℝ} (hx : Continuous x) (c e a b t : ℝ)
include hd hx

theorem kernel_integrable : Integrable (fun p : ℝ × (ℝ × ℝ) => exp (-(d ^ 2 + x p.2 ^ 2) * p.1 ^ 2)) ((volume.restrict (Set.Ioi t)).prod (rect c e a b)) := by
  have h1 : Integrable (fun s : ℝ => exp (-d ^ 2 * s ^ 2)) (volume.restrict (Set.Ioi t)) := (integrable_exp_neg_mul_sq (by positivity)).restrict
  refine (h1.comp_fst (rect c e a b)).mono' (by apply Continuous.aestronglyMeasurable; fun_prop) (Filter.Eventually.of_forall fun p => ?_)
  rw [norm_of_nonneg (exp_pos _).le]
  refine exp_le_exp.mpr ?_
  nlinarith [mul_nonneg (sq_nonneg (x p.2)) (sq_nonneg p.1)]

theorem kernel_swap : ∫ s in Set.Ioi t, ∫ p, exp (-(d ^ 2 + x p ^ 2) * s ^ 2) ∂(rect c e a b)
    = ∫ p, √π / (2 * √(d ^ 2 + x p ^ 2)) * (1 - erf (t * √(d ^ 2 + x p ^ 2))) ∂(rect c e a b) := by
  rw [integral_integral_swap (kernel_integrable hd hx c e a b t)]
  congr 1
  funext p
  have hr : 0 < d ^ 2 + x p ^ 2 := by positivity
  rw [← gauss_tail (sqrt_pos.mpr hr) t, sq_sqrt hr.le]

theorem kernel_integrableOn : IntegrableOn (fun s => ∫ p, exp (-(d ^ 2 + x p ^ 2) * s ^ 2) ∂(rect c e a b)) (Set.Ioi t) :=
  (kernel_integrable hd hx c e a b t).integral_prod_left

end kernel

theorem erf_continuous : Continuous erf := continuous_iff_continuousAt.mpr fun x => (hasDerivAt_erf x).continuousAt

/-- Geometry: positive distance and non-negative lengths. -/
structure Pair.Ok (g : Pair) : Prop where
  dis : 0 < g.dis
  H1 : 0 ≤ g.H1
  H2 : 0 < g.H2

section pair
variable (g : Pair)

/-- The measure of receiver and source. -/
def Pair.mu : Measure (ℝ × ℝ) := rect g.D2 (g.D2 + g.H2) g.D1 (g.D1 + g.H1)

instance : IsFiniteMeasure g.mu := by unfold Pair.mu; infer_instance

theorem integrand_all (s : ℝ) : integrand g true true s = integrand g true false s + integrand g false true s := by
  simp [integrand, inner8, inner4, Pair.qAll, Pair.qRea, Pair.qImg]
  ring

theorem integrand_none (s : ℝ) : integrand g false false s = 0 := by simp [integrand]

variable {g} (hg : g.Ok)
include hg

theorem integrand_rea {s : ℝ} (hs : s ≠ 0) : integrand g true false s = 2 / √π * ∫ p, exp (-(g.dis ^ 2 + (p.1 - p.2) ^ 2) * s ^ 2) ∂g.mu := by
  unfold Pair.mu
  rw [rect_eq (by fun_prop) (by linarith [hg.H2]) (by linarith [hg.H1])]
  have h := double_sub (k := fun x => exp (-(x * s) ^ 2)) (gauss_G hs) (gauss_G' hs) (by fun_prop) g.D1 (g.D1 + g.H1) g.D2 (g.D2 + g.H2)
  have e : ∀ z w : ℝ, exp (-(g.dis ^ 2 + (z - w) ^ 2) * s ^ 2) = exp (-g.dis ^ 2 * s ^ 2) * exp (-((z - w) * s) ^ 2) := fun z w => by
    rw [← exp_add]; congr 1; ring
  simp only [e, intervalIntegral.integral_const_mul]
  rw [h]
  simp [integrand, inner4, Pair.qRea]
  rw [show g.D2 + g.H2 - g.D1 = g.D2 - g.D1 + g.H2 by ring, show g.D2 - (g.D1 + g.H1) = g.D2 - g.D1 - g.H1 by ring,
    show g.D2 + g.H2 - (g.D1 + g.H1) = g.D2 - g.D1 + g.H2 - g.H1 by ring]
  have := sqrt_pi_pos
  field_simp
  ring

theorem integrand_img {s : ℝ} (hs : s ≠ 0) : integrand g false true s = -(2 / √π * ∫ p, exp (-(g.dis ^ 2 + (p.1 + p.2) ^ 2) * s ^ 2) ∂g.mu) := by
  unfold Pair.mu
  rw [rect_eq (by fun_prop) (by linarith [hg.H2]) (by linarith [hg.H1])]
  have h := double_add (k := fun x => exp (-(x * s) ^ 2)) (gauss_G hs) (gauss_G' hs) (by fun_prop) g.D1 (g.D1 + g.H1) g.D2 (g.D2 + g.H2)
  have e : ∀ z w : ℝ, exp (-(g.dis ^ 2 + (z + w) ^ 2) * s ^ 2) = exp (-g.dis ^ 2 * s ^ 2) * exp (-((z + w) * s) ^ 2) := fun z w => by
    rw [← exp_add]; congr 1; ring
  simp only [e, intervalIntegral.integral_const_mul]
  rw [h]
  simp [integrand, inner4, Pair.qImg]
  rw [show g.D2 + g.H2 + g.D1 = g.D2 + g.D1 + g.H2 by ring, show g.D2 + (g.D1 + g.H1) = g.D2 + g.D1 + g.H1 by ring,
    show g.D2 + g.H2 + (g.D1 + g.H1) = g.D2 + g.D1 + g.H2 + g.H1 by ring]
  have := sqrt_pi_pos
  field_simp
  ring

theorem rea_integrableOn {a : ℝ} (ha : 0 ≤ a) : IntegrableOn (integrand g true false) (Set.Ioi a) := by
  have h := (kernel_integrableOn hg.dis (x := fun p => p.1 - p.2) (by fun_prop) g.D2 (g.D2 + g.H2) g.D1 (g.D1 + g.H1) a).const_mul (2 / √π)
  exact IntegrableOn.congr_fun h (fun s hs => (integrand_rea hg (ha.trans_lt hs).ne').symm) measurableSet_Ioi

theorem img_integrableOn {a : ℝ} (ha : 0 ≤ a) : IntegrableOn (integrand g false true) (Set.Ioi a) := by
  have h := ((kernel_integrableOn hg.dis (x := fun p => p.1 + p.2) (by fun_prop) g.D2 (g.D2 + g.H2) g.D1 (g.D1 + g.H1) a).const_mul (2 / √π)).neg
  exact IntegrableOn.congr_fun h (fun s hs => (integrand_img hg (ha.trans_lt hs).ne').symm) measurableSet_Ioi

/-- The integrands are integrable, also from zero. -/
theorem integrand_integrableOn (rea img : Bool) {a : ℝ} (ha : 0 ≤ a) : IntegrableOn (integrand g rea img) (Set.Ioi a) := by
  cases rea <;> cases img
  · rw [show integrand g false false = fun _ => 0 from funext (integrand_none g)]
    exact integrableOn_zero
  · exact img_integrableOn hg ha
  · exact rea_integrableOn hg ha
  · rw [show integrand g true true = fun s => integrand g true false s + integrand g false true s from funext (integrand_all g)]
    exact (rea_integrableOn hg ha).add (img_integrableOn hg ha)

/-- Integral of the integrand of the real source. -/
theorem int_rea {a : ℝ} (ha : 0 ≤ a) : ∫ s in Set.Ioi a, integrand g true false s =
    ∫ z in g.D2..g.D2 + g.H2, ∫ w in g.D1..g.D1 + g.H1, (1 - erf (a * √(g.dis ^ 2 + (z - w) ^ 2))) / √(g.dis ^ 2 + (z - w) ^ 2) := by
  rw [setIntegral_congr_fun measurableSet_Ioi fun s (hs : a < s) => integrand_rea hg (ha.trans_lt hs).ne', integral_const_mul]
  unfold Pair.mu
  rw [kernel_swap hg.dis (x := fun p => p.1 - p.2) (by fun_prop)]
  have hne : ∀ p : ℝ × ℝ, √(g.dis ^ 2 + (p.1 - p.2) ^ 2) ≠ 0 := fun p => (sqrt_pos.mpr (by have := hg.dis; positivity)).ne'
  rw [← integral_const_mul, rect_eq _ (by linarith [hg.H2]) (by linarith [hg.H1])]
  · have hπ := sqrt_pi_pos
    congr 1; funext z; congr 1; funext w
    have := hne (z, w)
    dsimp only at this ⊢
    field_simp
  · have := erf_continuous
    refine continuous_const.mul (Continuous.mul (continuous_const.div (by fun_prop) fun p => mul_ne_zero two_ne_zero (hne p)) (by fun_prop))

/-- Integral of the integrand of the image source. -/
theorem int_img {a : ℝ} (ha : 0 ≤ a) : ∫ s in Set.Ioi a, integrand g false true s =
    -∫ z in g.D2..g.D2 + g.H2, ∫ w in g.D1..g.D1 + g.H1, (1 - erf (a * √(g.dis ^ 2 + (z + w) ^ 2))) / √(g.dis ^ 2 + (z + w) ^ 2) := by
  rw [setIntegral_congr_fun measurableSet_Ioi fun s (hs : a < s) => integrand_img hg (ha.trans_lt hs).ne', integral_neg, integral_const_mul]
  unfold Pair.mu
  rw [kernel_swap hg.dis (x := fun p => p.1 + p.2) (by fun_prop)]
  have hne : ∀ p : ℝ × ℝ, √(g.dis ^ 2 + (p.1 + p.2) ^ 2) ≠ 0 := fun p => (sqrt_pos.mpr (by have := hg.dis; positivity)).ne'
  rw [← integral_const_mul, rect_eq _ (by linarith [hg.H2]) (by linarith [hg.H1])]
  · have hπ := sqrt_pi_pos
    congr 2; funext z; congr 1; funext w
    have := hne (z, w)
    dsimp only at this ⊢
    field_simp
  · have := erf_continuous
    refine continuous_const.mul (Continuous.mul (continuous_const.div (by fun_prop) fun p => mul_ne_zero two_ne_zero (hne p)) (by fun_prop))

theorem int_all {a : ℝ} (ha : 0 ≤ a) : ∫ s in Set.Ioi a, integrand g true true s =
    (∫ s in Set.Ioi a, integrand g true false s) + ∫ s in Set.Ioi a, integrand g false true s := by
  simp only [integrand_all]
  exact integral_add (rea_integrableOn hg ha) (img_integrableOn hg ha)

end pair

theorem lower_nonneg (alpha t : ℝ) : 0 ≤ lower alpha t := by unfold lower; positivity

end Verif.FLS
