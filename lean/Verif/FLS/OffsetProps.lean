import Verif.FLS.TimeProps
import Mathlib.Analysis.Calculus.Deriv.MeanValue

/-!
# The finite line source solution depends on the offset of the depths

Used for the comparison of pairs of segments in the `Similarities` solver: two segments of equal length respond less to each other when their offset in depth
increases while the sum of their depths is kept.
-/

noncomputable section

namespace Verif.FLS

open Real MeasureTheory

/-- Second difference of `erfint`. -/
def second (h x : ℝ) : ℝ := erfint (x + h) - erfint x + erfint (x - h) - erfint x

theorem second_neg (h x : ℝ) : second h (-x) = second h x := by
  unfold second
  rw [show -x + h = -(x - h) by ring, show -x - h = -(x + h) by ring, erfint_neg, erfint_neg, erfint_neg]
  ring

theorem second_abs (h x : ℝ) : second h |x| = second h x := by
  rcases abs_choice x with e | e <;> rw [e]
  exact second_neg h x

theorem erf_second_neg {h x : ℝ} (hh : 0 < h) (hx : 0 < x) : erf (x + h) - erf x + erf (x - h) - erf x < 0 := by
  have hd : ∀ u, HasDerivAt (fun u => erf (x + u) + erf (x - u)) (2 / √π * exp (-(x + u) ^ 2) - 2 / √π * exp (-(x - u) ^ 2)) u := by
    intro u
    have h1 := (hasDerivAt_erf (x + u)).comp u ((hasDerivAt_id u).const_add x)
    have h2 := (hasDerivAt_erf (x - u)).comp u ((hasDerivAt_id u).const_sub x)
    refine (h1.add h2).congr_deriv ?_
    ring
  have hc : ContinuousOn (fun u => erf (x + u) + erf (x - u)) (Set.Ici 0) := fun u _ => (hd u).continuousAt.continuousWithinAt
  have hanti : StrictAntiOn (fun u => erf (x + u) + erf (x - u)) (Set.Ici 0) := by
    refine strictAntiOn_of_deriv_neg (convex_Ici 0) hc fun u hu => ?_
    rw [interior_Ici, Set.mem_Ioi] at hu
    rw [(hd u).deriv]
    have : exp (-(x + u) ^ 2) < exp (-(x - u) ^ 2) := exp_lt_exp.mpr (by nlinarith [mul_pos hx hu])
    have h2 : 0 < 2 / √π := by have := sqrt_pi_pos; positivity
    nlinarith
  have := hanti (show (0 : ℝ) ∈ Set.Ici 0 from le_refl (0 : ℝ)) (show h ∈ Set.Ici 0 from hh.le) hh
  simp only [add_zero, sub_zero] at this
  linarith

theorem second_strictAnti {h : ℝ} (hh : 0 < h) : StrictAntiOn (second h) (Set.Ici 0) := by
  have hd : ∀ x, HasDerivAt (second h) (erf (x + h) - erf x + erf (x - h) - erf x) x := by
    intro x
    have h1 := (hasDerivAt_erfint (x + h)).comp x ((hasDerivAt_id x).add_const h)
    have h2 := (hasDerivAt_erfint (x - h)).comp x ((hasDerivAt_id x).sub_const h)
    refine (((h1.sub (hasDerivAt_erfint x)).add h2).sub (hasDerivAt_erfint x)).congr_deriv ?_
    ring
  refine strictAntiOn_of_deriv_neg (convex_Ici 0) (fun u _ => (hd u).continuousAt.continuousWithinAt) fun u hu => ?_
  rw [interior_Ici, Set.mem_Ioi] at hu
  rw [(hd u).deriv]
  exact erf_second_neg hh hu

/-- Two pairs of segments of the same length `H` with the same sum of depths: the pair with the larger offset has the smaller response factor. -/
theorem offset_decreasing (t alpha : ℝ) {dis H D1 D2 E1 E2 : ℝ} (hdis : 0 < dis) (hH : 0 < H) (hsum : D1 + D2 = E1 + E2) (hlt : |D2 - D1| < |E2 - E1|) :
    fls t alpha ⟨dis, H, E1, H, E2⟩ true true < fls t alpha ⟨dis, H, D1, H, D2⟩ true true := by
  have hg : (⟨dis, H, D1, H, D2⟩ : Pair).Ok := ⟨hdis, hH.le, hH⟩
  have hg' : (⟨dis, H, E1, H, E2⟩ : Pair).Ok := ⟨hdis, hH.le, hH⟩
  have hl : 0 ≤ lower alpha t := by unfold lower; positivity
  have key : ∀ s, 0 < s → 0 < integrand ⟨dis, H, D1, H, D2⟩ true true s - integrand ⟨dis, H, E1, H, E2⟩ true true s := by
    intro s hs
    have e : integrand ⟨dis, H, D1, H, D2⟩ true true s - integrand ⟨dis, H, E1, H, E2⟩ true true s =
        s ^ (-2 : ℤ) * exp (-dis ^ 2 * s ^ 2) * (second (H * s) (|D2 - D1| * s) - second (H * s) (|E2 - E1| * s)) := by
      rw [show |D2 - D1| * s = |(D2 - D1) * s| by rw [abs_mul, abs_of_pos hs], show |E2 - E1| * s = |(E2 - E1) * s| by rw [abs_mul, abs_of_pos hs], second_abs, second_abs]
      have hs' : E2 + E1 = D2 + D1 := by linarith
      simp only [integrand, Pair.qAll, inner8, Bool.and_self, if_true, List.map_cons, List.map_nil, List.zipWith_cons_cons, List.zipWith_nil_right, List.sum_cons, List.sum_nil, hs', second]
      rw [show D2 - D1 + H - H = D2 - D1 by ring, show E2 - E1 + H - H = E2 - E1 by ring, show (D2 - D1 + H) * s = (D2 - D1) * s + H * s by ring,
        show (D2 - D1 - H) * s = (D2 - D1) * s - H * s by ring, show (E2 - E1 + H) * s = (E2 - E1) * s + H * s by ring, show (E2 - E1 - H) * s = (E2 - E1) * s - H * s by ring]
      ring
    rw [e]
    have h1 := second_strictAnti (mul_pos hH hs) (show |D2 - D1| * s ∈ Set.Ici 0 from mul_nonneg (abs_nonneg _) hs.le)
      (show |E2 - E1| * s ∈ Set.Ici 0 from mul_nonneg (abs_nonneg _) hs.le) (mul_lt_mul_of_pos_right hlt hs)
    have : 0 < s ^ (-2 : ℤ) := zpow_pos hs _
    have := exp_pos (-dis ^ 2 * s ^ 2)
    have := sub_pos.mpr h1
    positivity
  have hi := fun a (ha : 0 ≤ a) => integrand_integrableOn hg true true ha
  have hi' := fun a (ha : 0 ≤ a) => integrand_integrableOn hg' true true ha
  have hp := tail_pos (f := fun s => integrand ⟨dis, H, D1, H, D2⟩ true true s - integrand ⟨dis, H, E1, H, E2⟩ true true s) (fun a ha => (hi a ha).sub (hi' a ha)) key hl
  have e : quad (fun s => integrand ⟨dis, H, D1, H, D2⟩ true true s - integrand ⟨dis, H, E1, H, E2⟩ true true s) (lower alpha t) none =
      quad (integrand ⟨dis, H, D1, H, D2⟩ true true) (lower alpha t) none - quad (integrand ⟨dis, H, E1, H, E2⟩ true true) (lower alpha t) none :=
    integral_sub (hi _ hl) (hi' _ hl)
  rw [e] at hp
  unfold fls
  have : 0 < 0.5 / H := by positivity
  exact mul_lt_mul_of_pos_left (by linarith) this

/-- Non-vacuity: offsets 48 m and 52 m with the same sum of depths. -/
example : fls 1 1 ⟨5, 50, 2, 50, 54⟩ true true < fls 1 1 ⟨5, 50, 4, 50, 52⟩ true true :=
  offset_decreasing 1 1 (by norm_num) (by norm_num) (by norm_num) (by norm_num)

end Verif.FLS
