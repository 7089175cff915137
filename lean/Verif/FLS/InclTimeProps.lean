import Verif.FLS.InclProps
import Verif.FLS.TimeProps

/-!
# Sign and growth of the finite line source solution for inclined boreholes (C128)
-/

noncomputable section

namespace Verif.FLS.Incl

open Real MeasureTheory Bore

/-- Specification: a borehole under the ground surface that goes down. -/
structure Down (b : Borehole) : Prop where
  H : 0 < b.H
  D : 0 ≤ b.D
  cos : 0 < cos b.tilt

/-- Nodes inside the source, with positive weights. -/
structure Inside (nodes : List (ℝ × ℝ)) : Prop where
  ne : nodes ≠ []
  pos : ∀ n ∈ nodes, 0 < n.1
  lt : ∀ n ∈ nodes, n.1 < 1
  weight : ∀ n ∈ nodes, 0 < n.2

theorem Down.depth {b : Borehole} (h : Down b) {v : ℝ} (hv : 0 < v) : 0 < pz b v := by
  have := mul_pos hv h.cos
  have := h.D
  unfold pz; linarith

theorem img_sub (b1 b2 : Borehole) (u v : ℝ) : dist2img b1 b2 u v = dist2 b1 b2 u v + 4 * (pz b1 (u * b1.H) * pz b2 v) := by
  unfold dist2img dist2; ring

theorem img_far {b1 b2 : Borehole} (h1 : Down b1) (h2 : Down b2) {u v : ℝ} (hu : 0 < u) (hv : 0 ≤ v) : 0 < dist2img b1 b2 u v := by
  have e1 := h1.depth (mul_pos hu h1.H)
  have e2 : 0 ≤ pz b2 v := by have := mul_nonneg hv h2.cos.le; have := h2.D; unfold pz; linarith
  unfold dist2img
  have : 0 < (-pz b1 (u * b1.H) - pz b2 v) ^ 2 := by nlinarith
  positivity

/-- An image acts less than its source. -/
theorem imgPart_lt_rea {b1 b2 : Borehole} (h1 : Down b1) (h2 : Down b2) (e : ℝ) {n : ℝ × ℝ} (hn : 0 < n.1) {s : ℝ} (hs : 0 < s) : imgPart b1 b2 e n s < reaPart b1 b2 e n s := by
  unfold imgPart reaPart
  rw [node_eq _ _ _ _ _ _ _ _ hs.ne', node_eq _ _ _ _ _ _ _ _ hs.ne']
  refine mul_lt_mul_of_pos_left ?_ (by have := sqrt_pi_pos; positivity)
  have c1 := Q_continuous (dx b1 b2 ^ 2 + dy b1 b2 ^ 2 + e) (dzImg b1 b2) (kImg0 b1 b2) (kImg1 b1 b2) (kImg2 b1 b2) b1.H n.1
  have c2 := Q_continuous (dx b1 b2 ^ 2 + dy b1 b2 ^ 2 + e) (dzRea b1 b2) (kRea0 b1 b2) (kRea1 b1 b2) (kRea2 b1 b2) b1.H n.1
  have hlt : ∀ v ∈ Set.Ioc 0 b2.H, exp (-Q (dx b1 b2 ^ 2 + dy b1 b2 ^ 2 + e) (dzImg b1 b2) (kImg0 b1 b2) (kImg1 b1 b2) (kImg2 b1 b2) b1.H n.1 v * s ^ 2) <
      exp (-Q (dx b1 b2 ^ 2 + dy b1 b2 ^ 2 + e) (dzRea b1 b2) (kRea0 b1 b2) (kRea1 b1 b2) (kRea2 b1 b2) b1.H n.1 v * s ^ 2) := fun v hv => by
    rw [Q_rea, Q_img, exp_lt_exp, img_sub]
    have := mul_pos (mul_pos (h1.depth (mul_pos hn h1.H)) (h2.depth hv.1)) (pow_pos hs 2)
    linarith
  exact intervalIntegral.integral_lt_integral_of_continuousOn_of_le_of_exists_lt h2.H (by fun_prop) (by fun_prop) (fun v hv => (hlt v hv).le) ⟨b2.H, ⟨h2.H.le, le_rfl⟩, hlt _ ⟨h2.H, le_rfl⟩⟩

theorem total_lt' {H1 : ℝ} (hH : 0 < H1) {nodes : List (ℝ × ℝ)} (hn : Inside nodes) {f g : ℝ × ℝ → ℝ → ℝ} {s : ℝ} (hfg : ∀ n ∈ nodes, f n s < g n s) : total H1 nodes f s < total H1 nodes g s :=
  List.sum_lt_sum_of_ne_nil hn.ne _ _ fun n hm => mul_lt_mul_of_pos_left (hfg n hm) (mul_pos (hn.weight n hm) hH)

theorem total_zero (H1 : ℝ) (nodes : List (ℝ × ℝ)) (s : ℝ) : total H1 nodes (fun _ _ => 0) s = 0 := by simp [total]

/-- **C128** (pair).  For boreholes under the ground surface whose axes do not meet, the solution without images is positive and increases with time, the images lower it, and the solution
with images is positive and increases as well. -/
theorem inclined_increasing {alpha : ℝ} (ha : 0 < alpha) {b1 b2 : Borehole} {nodes : List (ℝ × ℝ)} (h : Apart b1 b2 nodes) (h1 : Down b1) (h2 : Down b2) (hn : Inside nodes)
    {t t' : ℝ} (ht : 0 < t) (htt : t < t') :
    0 < fls t alpha b1 b2 nodes true false ∧ fls t alpha b1 b2 nodes true false < fls t' alpha b1 b2 nodes true false ∧
    fls t alpha b1 b2 nodes true true < fls t alpha b1 b2 nodes true false ∧
    0 < fls t alpha b1 b2 nodes true true ∧ fls t alpha b1 b2 nodes true true < fls t' alpha b1 b2 nodes true true := by
  have hc : 0 < 0.5 / b2.H := by have := h2.H; positivity
  have hl := lower_lt ha ht htt
  have hl0 := lower_nonneg alpha t
  have hl0' := lower_nonneg alpha t'
  have hi := fun rea img (a : ℝ) (h0 : 0 ≤ a) => integrand_integrableOn h h0 rea img
  have p1 : ∀ s, 0 < s → 0 < integrand b1 b2 nodes true false s := fun s hs => by
    rw [integrand_rea, ← total_zero b1.H nodes s]
    exact total_lt' h1.H hn fun n _ => node_pos h2.H hs
  have p2 : ∀ s, 0 < s → 0 < integrand b1 b2 nodes true true s := fun s hs => by
    rw [integrand_all]
    exact sub_pos.mpr (total_lt' h1.H hn fun n hm => imgPart_lt_rea h1 h2 _ (hn.pos n hm) hs)
  have p3 : ∀ s, 0 < s → 0 < integrand b1 b2 nodes true false s - integrand b1 b2 nodes true true s := fun s hs => by
    rw [integrand_rea, integrand_all, sub_sub_cancel, ← total_zero b1.H nodes s]
    exact total_lt' h1.H hn fun n _ => node_pos h2.H hs
  have q3 := tail_pos (fun a h0 => (hi true false a h0).sub (hi true true a h0)) p3 hl0
  have e3 : quad (fun s => integrand b1 b2 nodes true false s - integrand b1 b2 nodes true true s) (lower alpha t) none =
      quad (integrand b1 b2 nodes true false) (lower alpha t) none - quad (integrand b1 b2 nodes true true) (lower alpha t) none := integral_sub (hi true false _ hl0) (hi true true _ hl0)
  unfold fls
  refine ⟨mul_pos hc (tail_pos (hi true false) p1 hl0), mul_lt_mul_of_pos_left (tail_lt (hi true false) p1 hl0' hl) hc, mul_lt_mul_of_pos_left ?_ hc,
    mul_pos hc (tail_pos (hi true true) p2 hl0), mul_lt_mul_of_pos_left (tail_lt (hi true true) p2 hl0' hl) hc⟩
  have e4 : quad (integrand b1 b2 nodes true false - integrand b1 b2 nodes true true) (lower alpha t) none = quad (fun s => integrand b1 b2 nodes true false s - integrand b1 b2 nodes true true s) (lower alpha t) none := rfl
  linarith [q3, e3, e4]

end Verif.FLS.Incl
