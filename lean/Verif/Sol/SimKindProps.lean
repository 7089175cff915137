import Verif.Sol.SimKindModel
import Verif.Sol.SimIncl

/-!
# Property C136: similar pairs of inclined boreholes for real or mirror sources only
-/

noncomputable section

namespace Verif.FLS.Incl

open Real MeasureTheory Bore

/-- With real sources only, larger distances mean a smaller response. -/
theorem farther_real (t alpha : ℝ) {b1 b2 c1 c2 : Borehole} {nodes : List (ℝ × ℝ)} (hb : Apart b1 b2 nodes) (hc : Apart c1 c2 nodes) (hne : nodes ≠ []) (hw : ∀ n ∈ nodes, 0 < n.2)
    (h1 : 0 < b1.H) (e1 : c1.H = b1.H) (e2 : c2.H = b2.H) (hr : ∀ n ∈ nodes, ∀ v ∈ Set.Ioo 0 b2.H, dist2 b1 b2 n.1 v + gap b1 b2 < dist2 c1 c2 n.1 v + gap c1 c2) :
    fls t alpha c1 c2 nodes true false < fls t alpha b1 b2 nodes true false := by
  have hl := lower_nonneg alpha t
  have ib := fun a (ha : 0 ≤ a) => integrand_integrableOn hb (a := a) ha true false
  have ic := fun a (ha : 0 ≤ a) => integrand_integrableOn hc (a := a) ha true false
  have key : ∀ s, 0 < s → 0 < integrand b1 b2 nodes true false s - integrand c1 c2 nodes true false s := by
    intro s hs
    rw [integrand_rea, integrand_rea]
    simp only [total, e1]
    rw [sub_pos]
    refine List.sum_lt_sum_of_ne_nil hne _ _ fun n hn => ?_
    refine mul_lt_mul_of_pos_left ?_ (mul_pos (hw n hn) h1)
    rw [reaPart_eq _ _ _ _ hs.ne', reaPart_eq _ _ _ _ hs.ne', e2]
    refine mul_lt_mul_of_pos_left ?_ (by have := sqrt_pi_pos; positivity)
    have cb := dist2_continuous b1 b2 n.1
    have cc := dist2_continuous c1 c2 n.1
    rw [← sub_pos, ← intervalIntegral.integral_sub (Continuous.intervalIntegrable (by fun_prop) _ _) (Continuous.intervalIntegrable (by fun_prop) _ _)]
    refine intervalIntegral.intervalIntegral_pos_of_pos_on (Continuous.intervalIntegrable (by fun_prop) _ _) (fun v hv => ?_) hb.H2
    rw [sub_pos, exp_lt_exp]
    have := mul_lt_mul_of_pos_right (hr n hn v hv) (pow_pos hs 2)
    linarith
  have hp := tail_pos (f := fun s => integrand b1 b2 nodes true false s - integrand c1 c2 nodes true false s) (fun a ha => (ib a ha).sub (ic a ha)) key hl
  have e : quad (fun s => integrand b1 b2 nodes true false s - integrand c1 c2 nodes true false s) (lower alpha t) none =
      quad (integrand b1 b2 nodes true false) (lower alpha t) none - quad (integrand c1 c2 nodes true false) (lower alpha t) none := integral_sub (ib _ hl) (ic _ hl)
  rw [e] at hp
  unfold fls
  rw [e2]
  have := hb.H2
  exact mul_lt_mul_of_pos_left (by linarith) (by positivity)

/-- With mirror sources only, larger distances mean a response less negative. -/
theorem farther_image (t alpha : ℝ) {b1 b2 c1 c2 : Borehole} {nodes : List (ℝ × ℝ)} (hb : Apart b1 b2 nodes) (hc : Apart c1 c2 nodes) (hne : nodes ≠ []) (hw : ∀ n ∈ nodes, 0 < n.2)
    (h1 : 0 < b1.H) (e1 : c1.H = b1.H) (e2 : c2.H = b2.H) (hr : ∀ n ∈ nodes, ∀ v ∈ Set.Ioo 0 b2.H, dist2img b1 b2 n.1 v < dist2img c1 c2 n.1 v) :
    fls t alpha b1 b2 nodes false true < fls t alpha c1 c2 nodes false true := by
  have hl := lower_nonneg alpha t
  have ib := fun a (ha : 0 ≤ a) => integrand_integrableOn hb (a := a) ha false true
  have ic := fun a (ha : 0 ≤ a) => integrand_integrableOn hc (a := a) ha false true
  have key : ∀ s, 0 < s → 0 < integrand c1 c2 nodes false true s - integrand b1 b2 nodes false true s := by
    intro s hs
    rw [integrand_img, integrand_img]
    simp only [total, e1]
    rw [sub_pos, neg_lt_neg_iff]
    refine List.sum_lt_sum_of_ne_nil hne _ _ fun n hn => ?_
    refine mul_lt_mul_of_pos_left ?_ (mul_pos (hw n hn) h1)
    rw [imgPart_eq _ _ _ _ hs.ne', imgPart_eq _ _ _ _ hs.ne', e2]
    refine mul_lt_mul_of_pos_left ?_ (by have := sqrt_pi_pos; positivity)
    have cb := dist2img_continuous b1 b2 n.1
    have cc := dist2img_continuous c1 c2 n.1
    rw [← sub_pos, ← intervalIntegral.integral_sub (Continuous.intervalIntegrable (by fun_prop) _ _) (Continuous.intervalIntegrable (by fun_prop) _ _)]
    refine intervalIntegral.intervalIntegral_pos_of_pos_on (Continuous.intervalIntegrable (by fun_prop) _ _) (fun v hv => ?_) hb.H2
    rw [sub_pos, exp_lt_exp]
    have := mul_lt_mul_of_pos_right (hr n hn v hv) (pow_pos hs 2)
    linarith
  have hp := tail_pos (f := fun s => integrand c1 c2 nodes false true s - integrand b1 b2 nodes false true s) (fun a ha => (ic a ha).sub (ib a ha)) key hl
  have e : quad (fun s => integrand c1 c2 nodes false true s - integrand b1 b2 nodes false true s) (lower alpha t) none =
      quad (integrand c1 c2 nodes false true) (lower alpha t) none - quad (integrand b1 b2 nodes false true) (lower alpha t) none := integral_sub (ic _ hl) (ib _ hl)
  rw [e] at hp
  unfold fls
  rw [e2]
  have := hb.H2
  exact mul_lt_mul_of_pos_left (by linarith) (by positivity)

end Verif.FLS.Incl

namespace Verif.Sol

open Bore FLS.Incl

/-- **C136** is violated: pairs with the same relative orientations, in particular a pair and itself, are never found similar. -/
theorem inclined_kind_never_alike {tol : ℝ} (ht : 0 ≤ tol) (disTol : ℝ) {p q : Borehole × Borehole} (h : sinCos1 p = sinCos1 q ∨ sinCos2 p = sinCos2 q) :
    ¬ cmpRealInclined tol disTol p q ∧ ¬ cmpImageInclined tol disTol p q := by
  have h0 : ∀ a : ℝ, relDiff a a = 0 := fun a => by simp [relDiff]
  have : ¬ condThetaKind tol p q := by
    rintro ⟨h1, h2⟩
    rcases h with h | h
    · rw [h, h0] at h1; linarith
    · rw [h, h0] at h2; linarith
  exact ⟨fun hc => this hc.2.2.2.2, fun hc => this hc.2.2.2.2⟩

/-- A borehole tilted by 15 degrees in the direction of the row (`σ = 1`) or against it (`σ = -1`). -/
def leaning (x σ : ℝ) : Borehole := ⟨8, 4, 3 / 40, x, 0, Real.pi / 12, if σ = 1 then 0 else Real.pi⟩

theorem leaning_angle {σ : ℝ} (hσ : σ = 1 ∨ σ = -1) (x : ℝ) : Real.cos (leaning x σ).orientation = σ ∧ Real.sin (leaning x σ).orientation = 0 := by
  rcases hσ with rfl | rfl
  · simp [leaning]
  · have : (-1 : ℝ) ≠ 1 := by norm_num
    simp [leaning, this]

theorem leaning_dist {σ τ : ℝ} (hσ : σ = 1 ∨ σ = -1) (hτ : τ = 1 ∨ τ = -1) (u v : ℝ) :
    dist2 (leaning 0 σ) (leaning 5 τ) u v = (Real.sin (Real.pi / 12) * (u * 8 * σ - v * τ) - 5) ^ 2 + (Real.cos (Real.pi / 12) * (u * 8 - v)) ^ 2 ∧
    dist2img (leaning 0 σ) (leaning 5 τ) u v = (Real.sin (Real.pi / 12) * (u * 8 * σ - v * τ) - 5) ^ 2 + (8 + Real.cos (Real.pi / 12) * (u * 8 + v)) ^ 2 := by
  have a := leaning_angle hσ 0
  have b := leaning_angle hτ 5
  unfold dist2 dist2img px py pz
  rw [a.1, a.2, b.1, b.2]
  simp only [leaning]
  constructor <;> ring

theorem leaning_gap (σ τ : ℝ) : gap (leaning 0 σ) (leaning 5 τ) = 0 := by
  unfold gap leaning
  norm_num

theorem leaning_sinCos {σ τ : ℝ} (hσ : σ = 1 ∨ σ = -1) (hτ : τ = 1 ∨ τ = -1) :
    sinCos1 (leaning 0 σ, leaning 5 τ) = -(Real.sin (Real.pi / 12) * σ) ∧ sinCos2 (leaning 0 σ, leaning 5 τ) = -(Real.sin (Real.pi / 12) * τ) := by
  have ht : pairTheta (leaning 0 σ, leaning 5 τ) = Real.pi := by
    unfold pairTheta arctan2 leaning
    rw [Complex.arg_eq_pi_iff]
    simp
  unfold sinCos1 sinCos2
  rw [ht, Real.cos_pi_sub, Real.cos_pi_sub, (leaning_angle hσ 0).1, (leaning_angle hτ 5).1]
  simp [leaning]

theorem sin_small : 0 < Real.sin (Real.pi / 12) ∧ Real.sin (Real.pi / 12) < 3 / 10 := by
  have h1 := Real.pi_gt_three
  have h2 := Real.pi_lt_d2
  exact ⟨Real.sin_pos_of_pos_of_lt_pi (by positivity) (by linarith), (Real.sin_lt (by positivity)).trans (by norm_num at h2 ⊢; linarith)⟩

/-- **C136** is violated: two boreholes that lean towards each other and two that lean away from each other are found similar, for real and for mirror sources and for any tolerances, but their responses differ
at all times and with any quadrature. -/
theorem inclined_kind_differ {tol disTol : ℝ} (h0 : 0 < tol) (h1 : tol < 1) (hd : 0 < disTol) (t alpha : ℝ) {nodes : List (ℝ × ℝ)} (hne : nodes ≠ [])
    (hn : ∀ n ∈ nodes, 0 < n.1 ∧ n.1 < 1 ∧ 0 < n.2) :
    cmpRealInclined tol disTol (leaning 0 1, leaning 5 (-1)) (leaning 0 (-1), leaning 5 1) ∧
    cmpImageInclined tol disTol (leaning 0 1, leaning 5 (-1)) (leaning 0 (-1), leaning 5 1) ∧
    fls t alpha (leaning 0 (-1)) (leaning 5 1) nodes true false < fls t alpha (leaning 0 1) (leaning 5 (-1)) nodes true false ∧
    fls t alpha (leaning 0 1) (leaning 5 (-1)) nodes false true < fls t alpha (leaning 0 (-1)) (leaning 5 1) nodes false true := by
  obtain ⟨s0, s1⟩ := sin_small
  have c0 : 0 < Real.cos (Real.pi / 12) := Real.cos_pos_of_mem_Ioo ⟨by linarith [Real.pi_pos], by linarith [Real.pi_pos]⟩
  have z : ∀ a : ℝ, relDiff a a = 0 := fun a => by simp [relDiff]
  have hH : condH tol (leaning 0 1, leaning 5 (-1)) (leaning 0 (-1), leaning 5 1) := by simp [condH, leaning, h0]
  have hdis : relDiff (pairDis (leaning 0 1, leaning 5 (-1))) (pairDis (leaning 0 (-1), leaning 5 1)) < disTol := by
    rw [show pairDis (leaning 0 1, leaning 5 (-1)) = pairDis (leaning 0 (-1), leaning 5 1) from rfl, z]; exact hd
  have hbeta : condBeta tol (leaning 0 1, leaning 5 (-1)) (leaning 0 (-1), leaning 5 1) := ⟨by rw [show |(leaning 0 1).tilt| = |(leaning 0 (-1)).tilt| from rfl]; simpa [z] using h0,
    by rw [show |(leaning 5 (-1)).tilt| = |(leaning 5 1).tilt| from rfl]; simpa [z] using h0⟩
  have hrel : ∀ s : ℝ, 3 / 10 > |s| → 1 / 100 < |s| → relDiff s (-s) > tol := fun s _ hs => by
    unfold relDiff
    rw [show s - -s = 2 * s by ring, abs_mul, abs_of_pos (by norm_num : (0 : ℝ) < 2), gt_iff_lt, lt_div_iff₀ (by positivity)]
    have : tol * (|s| + 1 / 10 ^ 30) ≤ 1 * (|s| + 1 / 10 ^ 30) := mul_le_mul_of_nonneg_right h1.le (by positivity)
    have : (1 : ℝ) / 10 ^ 30 < 1 / 100 := by norm_num
    linarith
  have slow : 1 / 100 < Real.sin (Real.pi / 12) := by
    have h3 := Real.pi_gt_three
    have h4 := Real.pi_lt_four
    have := Real.sin_gt_sub_cube (x := Real.pi / 12) (by positivity)
    have h5 : (Real.pi / 12) ^ 3 ≤ 1 / 27 := by
      have : (Real.pi / 12) ^ 3 ≤ (1 / 3) ^ 3 := pow_le_pow_left₀ (by positivity) (by linarith) 3
      linarith
    linarith
  have htheta : condThetaKind tol (leaning 0 1, leaning 5 (-1)) (leaning 0 (-1), leaning 5 1) := by
    obtain ⟨a1, a2⟩ := leaning_sinCos (σ := 1) (τ := -1) (.inl rfl) (.inr rfl)
    obtain ⟨b1, b2⟩ := leaning_sinCos (σ := -1) (τ := 1) (.inr rfl) (.inl rfl)
    unfold condThetaKind
    rw [a1, a2, b1, b2]
    have e1 : |(-(Real.sin (Real.pi / 12)))| = Real.sin (Real.pi / 12) := by rw [abs_neg, abs_of_pos s0]
    constructor
    · have := hrel (-(Real.sin (Real.pi / 12))) (by rw [e1]; exact s1) (by rw [e1]; exact slow)
      simpa using this
    · have := hrel (Real.sin (Real.pi / 12)) (by rw [abs_of_pos s0]; exact s1) (by rw [abs_of_pos s0]; exact slow)
      simpa using this
  refine ⟨⟨hH, by rw [show (leaning 0 1).D - (leaning 5 (-1)).D = (leaning 0 (-1)).D - (leaning 5 1).D from rfl]; simpa [z] using h0, hdis, hbeta, htheta⟩,
    ⟨hH, by rw [show (leaning 0 1).D + (leaning 5 (-1)).D = (leaning 0 (-1)).D + (leaning 5 1).D from rfl]; simpa [z] using h0, hdis, hbeta, htheta⟩, ?_, ?_⟩
  all_goals
    have hsum : ∀ n ∈ nodes, ∀ v ∈ Set.Icc (0 : ℝ) 8, 0 ≤ Real.sin (Real.pi / 12) * (n.1 * 8 + v) ∧ Real.sin (Real.pi / 12) * (n.1 * 8 + v) < 5 := fun n hm v hv => by
      obtain ⟨n0, n1, -⟩ := hn n hm
      have hv0 := hv.1
      have hv1 := hv.2
      refine ⟨by positivity, ?_⟩
      have : Real.sin (Real.pi / 12) * (n.1 * 8 + v) ≤ 3 / 10 * 16 := by
        refine mul_le_mul s1.le (by linarith) (by positivity) (by norm_num)
      linarith
    have hap1 : Apart (leaning 0 1) (leaning 5 (-1)) nodes := by
      refine ⟨by norm_num [leaning], fun n hm v hv => ?_, fun n hm v hv => ?_⟩
      · rw [(leaning_dist (.inl rfl) (.inr rfl) _ _).1, leaning_gap]
        have := (hsum n hm v (by simpa [leaning] using hv)).2
        have : 0 < (Real.sin (Real.pi / 12) * (n.1 * 8 * 1 - v * -1) - 5) ^ 2 := by
          refine sq_pos_of_neg ?_
          linarith
        positivity
      · rw [(leaning_dist (.inl rfl) (.inr rfl) _ _).2]
        have h3 := (hn n hm).1
        have h4 : 0 ≤ v := hv.1
        have : 0 < (8 + Real.cos (Real.pi / 12) * (n.1 * 8 + v)) ^ 2 := by positivity
        positivity
    have hap2 : Apart (leaning 0 (-1)) (leaning 5 1) nodes := by
      refine ⟨by norm_num [leaning], fun n hm v hv => ?_, fun n hm v hv => ?_⟩
      · rw [(leaning_dist (.inr rfl) (.inl rfl) _ _).1, leaning_gap]
        have := (hsum n hm v (by simpa [leaning] using hv)).1
        have : 0 < (Real.sin (Real.pi / 12) * (n.1 * 8 * -1 - v * 1) - 5) ^ 2 := by
          refine sq_pos_of_neg ?_
          linarith
        positivity
      · rw [(leaning_dist (.inr rfl) (.inl rfl) _ _).2]
        have h3 := (hn n hm).1
        have h4 : 0 ≤ v := hv.1
        have : 0 < (8 + Real.cos (Real.pi / 12) * (n.1 * 8 + v)) ^ 2 := by positivity
        positivity
  · refine farther_real t alpha hap1 hap2 hne (fun n hm => (hn n hm).2.2) (by norm_num [leaning]) rfl rfl fun n hm v hv => ?_
    rw [(leaning_dist (.inl rfl) (.inr rfl) _ _).1, (leaning_dist (.inr rfl) (.inl rfl) _ _).1, leaning_gap, leaning_gap]
    have : 0 < Real.sin (Real.pi / 12) * (n.1 * 8 + v) := by have := (hn n hm).1; have := hv.1; positivity
    nlinarith
  · refine farther_image t alpha hap1 hap2 hne (fun n hm => (hn n hm).2.2) (by norm_num [leaning]) rfl rfl fun n hm v hv => ?_
    rw [(leaning_dist (.inl rfl) (.inr rfl) _ _).2, (leaning_dist (.inr rfl) (.inl rfl) _ _).2]
    have : 0 < Real.sin (Real.pi / 12) * (n.1 * 8 + v) := by have := (hn n hm).1; have := hv.1; positivity
    nlinarith

/-- The quantities compared for one kind of source are exactly equal; `D` is the difference (real sources) or the sum (mirror sources) of the buried depths. -/
structure SameKind (D : Borehole × Borehole → ℝ) (p q : Borehole × Borehole) : Prop where
  H1 : p.1.H = q.1.H
  H2 : p.2.H = q.2.H
  depth : D p = D q
  dis : pairDis p = pairDis q
  tilt1 : |p.1.tilt| = |q.1.tilt|
  tilt2 : |p.2.tilt| = |q.2.tilt|
  theta1 : sinCos1 p = sinCos1 q
  theta2 : sinCos2 p = sinCos2 q
  /-- Not compared by the code. -/
  angle : Real.sin p.1.tilt * Real.sin p.2.tilt * Real.cos (p.1.orientation - p.2.orientation) = Real.sin q.1.tilt * Real.sin q.2.tilt * Real.cos (q.1.orientation - q.2.orientation)

theorem SameKind.terms {D : Borehole × Borehole → ℝ} {p q : Borehole × Borehole} (h : SameKind D p q) :
    dx p.1 p.2 ^ 2 + dy p.1 p.2 ^ 2 = dx q.1 q.2 ^ 2 + dy q.1 q.2 ^ 2 ∧ Real.cos p.1.tilt = Real.cos q.1.tilt ∧ Real.cos p.2.tilt = Real.cos q.2.tilt ∧
    Real.sin p.1.tilt * (Real.cos p.1.orientation * dx p.1 p.2 + Real.sin p.1.orientation * dy p.1 p.2)
      = Real.sin q.1.tilt * (Real.cos q.1.orientation * dx q.1 q.2 + Real.sin q.1.orientation * dy q.1 q.2) ∧
    Real.sin p.2.tilt * (Real.cos p.2.orientation * dx p.1 p.2 + Real.sin p.2.orientation * dy p.1 p.2)
      = Real.sin q.2.tilt * (Real.cos q.2.orientation * dx q.1 q.2 + Real.sin q.2.orientation * dy q.1 q.2) := by
  have sq : ∀ r : Borehole × Borehole, dx r.1 r.2 ^ 2 + dy r.1 r.2 ^ 2 = pairDis r ^ 2 := by
    intro r
    unfold pairDis dx dy
    rw [Real.sq_sqrt (by positivity)]
  have s : ∀ r : Borehole × Borehole, Real.sin r.1.tilt * (Real.cos r.1.orientation * dx r.1 r.2 + Real.sin r.1.orientation * dy r.1 r.2) = sinCos1 r * pairDis r ∧
      Real.sin r.2.tilt * (Real.cos r.2.orientation * dx r.1 r.2 + Real.sin r.2.orientation * dy r.1 r.2) = sinCos2 r * pairDis r := by
    intro r
    obtain ⟨rx, ry⟩ := pair_polar r
    unfold dx dy sinCos1 sinCos2
    rw [rx, ry, Real.cos_sub, Real.cos_sub]
    constructor <;> ring
  refine ⟨by rw [sq, sq, h.dis], cos_of_abs h.tilt1, cos_of_abs h.tilt2, ?_, ?_⟩
  · rw [(s p).1, (s q).1, h.theta1, h.dis]
  · rw [(s p).2, (s q).2, h.theta2, h.dis]

/-- **C136** (partial).  With the comparison of orientations turned round (differences under the tolerance) and the angle between the boreholes the methods would be right: for real sources two pairs that agree in
the compared quantities and in the angle have the same response, if the radii are the same or less than the distance, and likewise for mirror sources with any radii.  Missing: the comparison of the code, which
asks for different orientations (`inclined_kind_never_alike`, `inclined_kind_differ`). -/
theorem inclined_kind_partial {p q : Borehole × Borehole} (t alpha : ℝ) (nodes : List (ℝ × ℝ)) :
    (SameKind (fun r => r.1.D - r.2.D) p q → (p.1.rb = q.1.rb ∨ (p.1.rb ≤ pairDis p ∧ q.1.rb ≤ pairDis q ∧ 0 ≤ p.1.rb ∧ 0 ≤ q.1.rb)) →
      fls t alpha p.1 p.2 nodes true false = fls t alpha q.1 q.2 nodes true false) ∧
    (SameKind (fun r => r.1.D + r.2.D) p q → fls t alpha p.1 p.2 nodes false true = fls t alpha q.1 q.2 nodes false true) := by
  constructor
  · intro h hr
    obtain ⟨hd2, c1, c2, s1, s2⟩ := h.terms
    have hz : dzRea p.1 p.2 = dzRea q.1 q.2 := h.depth
    have hrr : rr p.1 p.2 = rr q.1 q.2 := by
      unfold rr
      rw [hd2]
      rcases hr with hr | ⟨h1, h2, h3, h4⟩
      · rw [hr]
      · have sq : ∀ r : Borehole × Borehole, dx r.1 r.2 ^ 2 + dy r.1 r.2 ^ 2 = pairDis r ^ 2 := by
          intro r
          unfold pairDis dx dy
          rw [Real.sq_sqrt (by positivity)]
        rw [sq q]
        rw [h.dis] at h1
        rw [max_eq_left (pow_le_pow_left₀ h3 h1 2), max_eq_left (pow_le_pow_left₀ h4 h2 2)]
    have k0 : kRea0 p.1 p.2 = kRea0 q.1 q.2 := by unfold kRea0; rw [h.angle, c1, c2]
    have k1 : kRea1 p.1 p.2 = kRea1 q.1 q.2 := by unfold kRea1; rw [s1, c1, hz]
    have k2 : kRea2 p.1 p.2 = kRea2 q.1 q.2 := by unfold kRea2; rw [s2, c2, hz]
    have hint : integrand p.1 p.2 nodes true false = integrand q.1 q.2 nodes true false := by
      funext x
      unfold integrand
      simp only [Bool.and_false, Bool.false_eq_true, if_false, if_true]
      rw [hrr, hz, k0, k1, k2, h.H1, h.H2]
    unfold fls
    rw [hint, h.H2]
  · intro h
    obtain ⟨hd2, c1, c2, s1, s2⟩ := h.terms
    have hz : dzImg p.1 p.2 = dzImg q.1 q.2 := h.depth
    have k0 : kImg0 p.1 p.2 = kImg0 q.1 q.2 := by unfold kImg0; rw [h.angle, c1, c2]
    have k1 : kImg1 p.1 p.2 = kImg1 q.1 q.2 := by unfold kImg1; rw [s1, c1, hz]
    have k2 : kImg2 p.1 p.2 = kImg2 q.1 q.2 := by unfold kImg2; rw [s2, c2, hz]
    have hint : integrand p.1 p.2 nodes false true = integrand q.1 q.2 nodes false true := by
      funext x
      unfold integrand
      simp only [Bool.and_true, Bool.false_eq_true, if_false, if_true]
      rw [hd2, hz, k0, k1, k2, h.H1, h.H2]
    unfold fls
    rw [hint, h.H2]

/-- Two nodes. -/
example := inclined_kind_differ (tol := 1 / 10 ^ 6) (disTol := 1 / 100) (by norm_num) (by norm_num) (by norm_num) 3600 (1 / 10 ^ 6) (nodes := [(1 / 4, 1 / 2), (3 / 4, 1 / 2)]) (by simp)
  (by simp; norm_num)

example (p : Borehole × Borehole) : ¬ cmpRealInclined (1 / 10 ^ 6) (1 / 100) p p := (inclined_kind_never_alike (by norm_num) _ (.inl rfl)).1

/-- A pair moved down by 2 m responds alike to real sources. -/
example (t alpha : ℝ) (nodes : List (ℝ × ℝ)) :
    fls t alpha ⟨100, 4, 3 / 40, 0, 0, 1 / 4, 1⟩ ⟨100, 5, 3 / 40, 5, 0, 1 / 4, 2⟩ nodes true false = fls t alpha ⟨100, 6, 3 / 40, 0, 0, 1 / 4, 1⟩ ⟨100, 7, 3 / 40, 5, 0, 1 / 4, 2⟩ nodes true false :=
  (inclined_kind_partial (p := (⟨100, 4, 3 / 40, 0, 0, 1 / 4, 1⟩, ⟨100, 5, 3 / 40, 5, 0, 1 / 4, 2⟩)) (q := (⟨100, 6, 3 / 40, 0, 0, 1 / 4, 1⟩, ⟨100, 7, 3 / 40, 5, 0, 1 / 4, 2⟩)) t alpha nodes).1
    ⟨rfl, rfl, by norm_num, rfl, rfl, rfl, rfl, rfl, rfl⟩ (.inl rfl)

end Verif.Sol
