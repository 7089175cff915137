import Verif.FLS.SlowFirst
import Mathlib.Analysis.Convex.Deriv
import Mathlib.Analysis.Convex.Mul

/-!
# Lemmas: curves with slope `exp (-A / t) / t` times a decreasing convex function (C130)
-/

noncomputable section

namespace Verif.FLS

open Real MeasureTheory Set Filter Topology Exp1Check

theorem le_of_slope {f f' : ℝ → ℝ} {a b : ℝ} (hab : a ≤ b) (hd : ∀ x ∈ Icc a b, HasDerivAt f (f' x) x) (hn : ∀ x ∈ Ioo a b, 0 ≤ f' x) : f a ≤ f b := by
  have h : MonotoneOn f (Icc a b) := by
    refine monotoneOn_of_deriv_nonneg (convex_Icc a b) (fun x hx => (hd x hx).continuousAt.continuousWithinAt) (fun x hx => ?_) fun x hx => ?_
    · exact (hd x (interior_subset hx)).differentiableAt.differentiableWithinAt
    · rw [(hd x (interior_subset hx)).deriv]
      rw [interior_Icc] at hx
      exact hn x hx
  exact h (left_mem_Icc.mpr hab) (right_mem_Icc.mpr hab) hab

theorem three_points {φ : ℝ → ℝ} {s : Set ℝ} (hc : ConvexOn ℝ s φ) {x y z : ℝ} (hx : x ∈ s) (hz : z ∈ s) (hxy : x < y) (hyz : y < z) :
    φ y * (z - x) ≤ φ x * (z - y) + φ z * (y - x) := by
  have h : 0 < z - x := by linarith
  have := hc.2 hx hz (show 0 ≤ (z - y) / (z - x) from div_nonneg (by linarith) h.le) (show 0 ≤ (y - x) / (z - x) from div_nonneg (by linarith) h.le) (by field_simp; ring)
  have e : ((z - y) / (z - x)) • x + ((y - x) / (z - x)) • z = y := by
    simp only [smul_eq_mul]; field_simp; ring
  rw [e] at this
  simp only [smul_eq_mul] at this
  have := mul_le_mul_of_nonneg_right this h.le
  refine this.trans_eq ?_
  field_simp

/-- The slope of the infinite line source. -/
def ils (A t : ℝ) : ℝ := exp (-(A / t)) / t

theorem ils_nonneg (A : ℝ) {t : ℝ} (ht : 0 < t) : 0 ≤ ils A t := by unfold ils; positivity

theorem expAt_hasDerivAt (A : ℝ) {t : ℝ} (ht : 0 < t) : HasDerivAt (fun t => exp (-(A / t))) (exp (-(A / t)) * (A / t ^ 2)) t := by
  have h := ((hasDerivAt_const t A).div (hasDerivAt_id t) ht.ne').neg.exp
  refine h.congr_deriv ?_
  simp only [id, Pi.neg_apply, Pi.div_apply]
  ring

theorem ils_hasDerivAt (A : ℝ) {t : ℝ} (ht : 0 < t) : HasDerivAt (ils A) (exp (-(A / t)) * (A / t ^ 3 - 1 / t ^ 2)) t := by
  have h := (expAt_hasDerivAt A ht).div (hasDerivAt_id t) ht.ne'
  refine h.congr_deriv ?_
  simp only [id]
  field_simp

theorem ils_hasDerivAt2 (A : ℝ) {t : ℝ} (ht : 0 < t) : HasDerivAt (fun t => exp (-(A / t)) * (A / t ^ 3 - 1 / t ^ 2)) (exp (-(A / t)) / t ^ 5 * (A ^ 2 - 4 * A * t + 2 * t ^ 2)) t := by
  have h3 := (hasDerivAt_const t A).div (hasDerivAt_pow 3 t) (pow_ne_zero 3 ht.ne')
  have h2 := (hasDerivAt_const t (1 : ℝ)).div (hasDerivAt_pow 2 t) (pow_ne_zero 2 ht.ne')
  have h := (expAt_hasDerivAt A ht).mul (h3.sub h2)
  refine h.congr_deriv ?_
  simp only [Pi.sub_apply, Pi.div_apply]
  norm_num
  field_simp
  ring

theorem ils_antitone {A : ℝ} (hA : 0 < A) : AntitoneOn (ils A) (Ici A) := by
  have pos : ∀ x ∈ Ici A, 0 < x := fun x hx => hA.trans_le hx
  refine antitoneOn_of_deriv_nonpos (convex_Ici A) (fun x hx => (ils_hasDerivAt A (pos x hx)).continuousAt.continuousWithinAt) (fun x hx => ?_) fun x hx => ?_
  · exact (ils_hasDerivAt A (pos x (interior_subset hx))).differentiableAt.differentiableWithinAt
  · have hx' := interior_subset hx
    have p := pos x hx'
    rw [(ils_hasDerivAt A p).deriv]
    refine mul_nonpos_of_nonneg_of_nonpos (exp_pos _).le ?_
    have : A / x ^ 3 - 1 / x ^ 2 = (A - x) / x ^ 3 := by field_simp
    rw [this]
    exact div_nonpos_of_nonpos_of_nonneg (by have : A ≤ x := hx'; linarith) (by positivity)

theorem ils_convex {A : ℝ} (hA : 0 < A) : ConvexOn ℝ (Ici (2 * A)) (ils A) := by
  have pos : ∀ x ∈ Ici (2 * A), 0 < x := fun x hx => by have : 2 * A ≤ x := hx; linarith
  refine MonotoneOn.convexOn_of_deriv (convex_Ici _) (fun x hx => (ils_hasDerivAt A (pos x hx)).continuousAt.continuousWithinAt) (fun x hx => ?_) ?_
  · exact (ils_hasDerivAt A (pos x (interior_subset hx))).differentiableAt.differentiableWithinAt
  · have h : MonotoneOn (fun t => exp (-(A / t)) * (A / t ^ 3 - 1 / t ^ 2)) (Ici (2 * A)) := by
      refine monotoneOn_of_deriv_nonneg (convex_Ici _) (fun x hx => (ils_hasDerivAt2 A (pos x hx)).continuousAt.continuousWithinAt) (fun x hx => ?_) fun x hx => ?_
      · exact (ils_hasDerivAt2 A (pos x (interior_subset hx))).differentiableAt.differentiableWithinAt
      · have hx' : 2 * A ≤ x := interior_subset hx
        have p := pos x hx'
        rw [(ils_hasDerivAt2 A p).deriv]
        have : 0 ≤ A ^ 2 - 4 * A * x + 2 * x ^ 2 := by nlinarith
        positivity
    refine (h.mono interior_subset).congr fun x hx => ?_
    exact (ils_hasDerivAt A (pos x (interior_subset hx))).deriv.symm

/-- A response with the slope of the infinite line source times a factor that decreases ever more slowly. -/
structure Curve (A κ : ℝ) (φ R : ℝ → ℝ) : Prop where
  A_pos : 0 < A
  κ_nonneg : 0 ≤ κ
  convex : ConvexOn ℝ (Ioi 0) φ
  anti : AntitoneOn φ (Ioi 0)
  nonneg : ∀ t, 0 < t → 0 ≤ φ t
  deriv : ∀ t, 0 < t → HasDerivAt R (κ * (ils A t * φ t)) t
  R_nonneg : ∀ t, 0 < t → 0 ≤ R t

namespace Curve
variable {A κ : ℝ} {φ R : ℝ → ℝ} (h : Curve A κ φ R)
include h

theorem slope_antitone : AntitoneOn (fun t => ils A t * φ t) (Ici A) := by
  intro x hx y hy hxy
  have px : 0 < x := h.A_pos.trans_le hx
  have py : 0 < y := h.A_pos.trans_le hy
  exact mul_le_mul (ils_antitone h.A_pos hx hy hxy) (h.anti px py hxy) (h.nonneg y py) (ils_nonneg A px)

theorem slope_convex : ConvexOn ℝ (Ici (2 * A)) (fun t => ils A t * φ t) := by
  have hA := h.A_pos
  have pos : ∀ x ∈ Ici (2 * A), 0 < x := fun x hx => by have : 2 * A ≤ x := hx; linarith
  have sub : Ici (2 * A) ⊆ Ici A := Ici_subset_Ici.mpr (by linarith)
  refine (ils_convex hA).mul (h.convex.subset (fun x hx => pos x hx) (convex_Ici _)) (fun x hx => ils_nonneg A (pos x hx)) (fun x hx => h.nonneg x (pos x hx)) ?_
  intro x hx y hy hxy
  refine ils_antitone hA (sub hy) (sub hx) ?_
  by_contra hlt
  push Not at hlt
  exact absurd (h.anti (pos x hx) (pos y hy) hlt.le) (not_le.mpr hxy)

theorem mono {t t' : ℝ} (ht : 0 < t) (htt : t ≤ t') : R t ≤ R t' := by
  have hκ := h.κ_nonneg
  refine le_of_slope htt (fun x hx => h.deriv x (ht.trans_le hx.1)) fun x hx => ?_
  exact mul_nonneg hκ (mul_nonneg (ils_nonneg A (ht.trans hx.1)) (h.nonneg x (ht.trans hx.1)))

theorem shift {t : ℝ} (ht : 0 < t) {x : ℝ} (hx : 0 ≤ x) : HasDerivAt (fun x => R (t + x)) (κ * (ils A (t + x) * φ (t + x))) x := by
  have := HasDerivAt.comp x (h.deriv (t + x) (by linarith)) ((hasDerivAt_id x).const_add t)
  rwa [mul_one] at this

/-- Increments over equal times decrease. -/
theorem slower {t d : ℝ} (ht : A ≤ t) (hd : 0 ≤ d) : R (t + 2 * d) - R (t + d) ≤ R (t + d) - R t := by
  have hA := h.A_pos
  have hκ := h.κ_nonneg
  have := le_of_slope (f := fun x => R (t + x) - R (t + d + x)) (a := 0) (b := d) hd
    (fun x hx => (h.shift (by linarith) hx.1).sub (h.shift (t := t + d) (by linarith) hx.1)) fun x hx => by
      rw [← mul_sub]
      refine mul_nonneg hκ (sub_nonneg.mpr ?_)
      exact h.slope_antitone (show A ≤ t + x by linarith [hx.1]) (show A ≤ t + d + x by linarith [hx.1]) (by linarith)
  simp only [add_zero] at this
  rw [show t + d + d = t + 2 * d by ring] at this
  linarith

/-- The decrease of the increments decreases. -/
theorem slower2 {t d : ℝ} (ht : 2 * A ≤ t) (hd : 0 < d) :
    (R (t + 2 * d) - R (t + d)) - (R (t + 3 * d) - R (t + 2 * d)) ≤ (R (t + d) - R t) - (R (t + 2 * d) - R (t + d)) := by
  have hA := h.A_pos
  have hκ := h.κ_nonneg
  have := le_of_slope (f := fun x => R (t + x) - 2 * R (t + d + x) + R (t + 2 * d + x)) (a := 0) (b := d) hd.le
    (fun x hx => ((h.shift (by linarith) hx.1).sub ((h.shift (t := t + d) (by linarith) hx.1).const_mul 2)).add (h.shift (t := t + 2 * d) (by linarith) hx.1)) fun x hx => by
      have hx0 := hx.1
      have := three_points h.slope_convex (x := t + x) (y := t + d + x) (z := t + 2 * d + x) (show 2 * A ≤ t + x by linarith) (show 2 * A ≤ t + 2 * d + x by linarith) (by linarith) (by linarith)
      rw [show t + 2 * d + x - (t + x) = 2 * d by ring, show t + 2 * d + x - (t + d + x) = d by ring, show t + d + x - (t + x) = d by ring] at this
      have : 0 ≤ ils A (t + x) * φ (t + x) - 2 * (ils A (t + d + x) * φ (t + d + x)) + ils A (t + 2 * d + x) * φ (t + 2 * d + x) := by
        refine nonneg_of_mul_nonneg_left (b := d) ?_ hd
        linarith
      have := mul_nonneg hκ this
      linarith
  simp only [add_zero] at this
  rw [show t + d + d = t + 2 * d by ring, show t + 2 * d + d = t + 3 * d by ring] at this
  linarith

/-- The first time steps. -/
theorem first {d : ℝ} (hd : 0 < d) (hAd : 5 * A ≤ 2 * d) : 0 ≤ R (3 * d) - 3 * R (2 * d) + 3 * R d := by
  have hA := h.A_pos
  have hκ := h.κ_nonneg
  obtain ⟨v, hv⟩ : ∃ v, v = (φ d - φ (2 * d)) / d := ⟨_, rfl⟩
  obtain ⟨u, hu⟩ : ∃ u, u = φ d + d * v := ⟨_, rfl⟩
  have hv0 : 0 ≤ v := by
    rw [hv]
    exact div_nonneg (sub_nonneg.mpr (h.anti (show 0 < d from hd) (show 0 < 2 * d by linarith) (by linarith))) hd.le
  have hu0 : 0 ≤ u := by rw [hu]; exact add_nonneg (h.nonneg d hd) (mul_nonneg hd.le hv0)
  have e1 : φ d = u - v * d := by rw [hu]; ring
  have e2 : φ (2 * d) = u - v * (2 * d) := by rw [hu, hv]; field_simp; ring
  have hd2 : 0 < 2 * d := by linarith
  have lo1 : ∀ t, 0 < t → t < d → u - v * t ≤ φ t := fun t ht htd => by
    have := three_points h.convex (show t ∈ Ioi 0 from ht) (show 2 * d ∈ Ioi 0 from hd2) htd (by linarith : d < 2 * d)
    rw [e1, e2] at this
    refine le_of_mul_le_mul_right (a := d) ?_ hd
    nlinarith
  have hi2 : ∀ t, d < t → t < 2 * d → φ t ≤ u - v * t := fun t ht htd => by
    have := three_points h.convex (show d ∈ Ioi 0 from hd) (show 2 * d ∈ Ioi 0 from hd2) ht htd
    rw [e1, e2] at this
    refine le_of_mul_le_mul_right (a := d) ?_ hd
    nlinarith
  have lo3 : ∀ t, 2 * d < t → u - v * t ≤ φ t := fun t ht => by
    have := three_points h.convex (show d ∈ Ioi 0 from hd) (show t ∈ Ioi 0 from hd2.trans ht) (by linarith : d < 2 * d) ht
    rw [e1, e2] at this
    refine le_of_mul_le_mul_right (a := d) ?_ hd
    nlinarith
  have hE : ∀ t : ℝ, 0 < t → HasDerivAt (fun t => E1 (A / t)) (exp (-(A / t)) / t) t := fun t ht => by
    have := HasDerivAt.comp t (E1_hasDerivAt (div_pos hA ht)) ((hasDerivAt_const t A).div (hasDerivAt_id t) ht.ne')
    refine this.congr_deriv ?_
    show -(exp (-(A / t)) / (A / t)) * ((0 * t - A * 1) / t ^ 2) = _
    field_simp
    ring
  have hF : ∀ t : ℝ, 0 < t → HasDerivAt (fun t => t * exp (-(A / t)) - A * E1 (A / t)) (exp (-(A / t))) t := fun t ht => by
    refine (((hasDerivAt_id t).mul (expAt_hasDerivAt A ht)).sub ((hE t ht).const_mul A)).congr_deriv ?_
    simp only [id]
    field_simp
    ring
  obtain ⟨Q, hQ⟩ : ∃ Q : ℝ → ℝ, Q = fun t => κ * (u * E1 (A / t) - v * (t * exp (-(A / t)) - A * E1 (A / t))) := ⟨_, rfl⟩
  have hQd : ∀ t : ℝ, 0 < t → HasDerivAt Q (κ * (u * (exp (-(A / t)) / t) - v * exp (-(A / t)))) t := fun t ht => by
    rw [hQ]
    exact (((hE t ht).const_mul u).sub ((hF t ht).const_mul v)).const_mul κ
  have hW : ∀ t : ℝ, 0 < t → HasDerivAt (fun t => R t - Q t) (κ * ils A t * (φ t - (u - v * t))) t := fun t ht => by
    refine ((h.deriv t ht).sub (hQd t ht)).congr_deriv ?_
    unfold ils
    field_simp
  have hc : ∀ t, 0 < t → 0 ≤ κ * ils A t := fun t ht => mul_nonneg hκ (ils_nonneg A ht)
  have w23 : R (2 * d) - Q (2 * d) ≤ R (3 * d) - Q (3 * d) := by
    refine le_of_slope (f := fun t => R t - Q t) (by linarith) (fun t ht => hW t (by linarith [ht.1])) fun t ht => ?_
    exact mul_nonneg (hc t (by linarith [ht.1])) (sub_nonneg.mpr (lo3 t ht.1))
  have w12 : -(R d - Q d) ≤ -(R (2 * d) - Q (2 * d)) := by
    refine le_of_slope (f := fun t => -(R t - Q t)) (by linarith) (fun t ht => (hW t (by linarith [ht.1])).neg) fun t ht => ?_
    have := mul_nonneg (hc t (by linarith [ht.1])) (sub_nonneg.mpr (hi2 t ht.1 ht.2))
    linarith
  have w01 : ∀ ε, 0 < ε → ε < d → R ε - Q ε ≤ R d - Q d := fun ε hε hεd => by
    refine le_of_slope (f := fun t => R t - Q t) hεd.le (fun t ht => hW t (by linarith [ht.1])) fun t ht => ?_
    exact mul_nonneg (hc t (by linarith [ht.1])) (sub_nonneg.mpr (lo1 t (by linarith [ht.1]) ht.2))
  have qs : ∀ ε, 0 < ε → Q ε ≤ κ * u / A * ε := fun ε hε => by
    have hx : 0 < A / ε := div_pos hA hε
    have a := E1_le hx
    have b : exp (-(A / ε)) ≤ 1 := exp_le_one_iff.mpr (by linarith)
    have c : exp (-(A / ε)) / (A / ε) = exp (-(A / ε)) * ε / A := by field_simp
    rw [c] at a
    have f : 0 ≤ ε * exp (-(A / ε)) - A * E1 (A / ε) := by
      have := mul_le_mul_of_nonneg_left a hA.le
      have e : A * (exp (-(A / ε)) * ε / A) = exp (-(A / ε)) * ε := by field_simp
      linarith
    have g : E1 (A / ε) ≤ ε / A := a.trans (div_le_div_of_nonneg_right (mul_le_of_le_one_left hε.le b) hA.le)
    rw [hQ]
    have e : κ * u / A * ε = κ * (u * (ε / A)) := by ring
    rw [e]
    refine mul_le_mul_of_nonneg_left ?_ hκ
    have := mul_le_mul_of_nonneg_left g hu0
    have := mul_nonneg hv0 f
    linarith
  have w1 : 0 ≤ R d - Q d := by
    have hl : Tendsto (fun ε : ℝ => -(κ * u / A * ε)) (𝓝[>] 0) (𝓝 0) := by
      have : Tendsto (fun ε : ℝ => -(κ * u / A * ε)) (𝓝 0) (𝓝 (-(κ * u / A * 0))) := (Continuous.tendsto (by fun_prop) 0)
      rw [mul_zero, neg_zero] at this
      exact this.mono_left nhdsWithin_le_nhds
    refine le_of_tendsto hl ?_
    filter_upwards [Ioo_mem_nhdsGT hd] with ε hε
    have := w01 ε hε.1 hε.2
    have := qs ε hε.1
    have := h.R_nonneg ε hε.1
    linarith
  have lq : 0 ≤ Q (3 * d) - 3 * Q (2 * d) + 3 * Q d := by
    have ha : 0 < A / d := div_pos hA hd
    have ha' : A / d ≤ 2 / 5 := by rw [div_le_div_iff₀ hd (by norm_num)]; linarith
    have t := third_pos ha ha'
    have f := first_exp ha ha'
    have r2 : A / (2 * d) = A / d / 2 := by field_simp
    have r3 : A / (3 * d) = A / d / 3 := by field_simp
    have e : Q (3 * d) - 3 * Q (2 * d) + 3 * Q d
        = κ * (u * third (A / d) + v * (3 * d * (2 * exp (-(A / d / 2)) - exp (-(A / d)) - exp (-(A / d / 3))) + A * third (A / d))) := by
      rw [hQ]
      simp only [r2, r3]
      unfold third
      ring
    rw [e]
    have : 0 ≤ 2 * exp (-(A / d / 2)) - exp (-(A / d)) - exp (-(A / d / 3)) := by linarith
    positivity
  linarith

end Curve

end Verif.FLS
