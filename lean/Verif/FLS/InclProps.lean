import Verif.FLS.InclLemmas
import Mathlib.Analysis.Real.Pi.Bounds

/-!
# Properties of the finite line source solution for inclined boreholes (C22, C23, C76, C77)
-/

noncomputable section

namespace Verif.FLS.Incl

open Real MeasureTheory Bore

/-! ### Specification: points on the boreholes and their distances -/

/-- Coordinates of the point at the distance `v` from the head of the borehole; `z` is the depth below ground. -/
def px (b : Borehole) (v : ℝ) : ℝ := b.x + v * (sin b.tilt * cos b.orientation)
def py (b : Borehole) (v : ℝ) : ℝ := b.y + v * (sin b.tilt * sin b.orientation)
def pz (b : Borehole) (v : ℝ) : ℝ := b.D + v * cos b.tilt

/-- Square of the distance from the point of the source at the fraction `u` of its length to the point of the receiver at `v`. -/
def dist2 (b1 b2 : Borehole) (u v : ℝ) : ℝ := (px b1 (u * b1.H) - px b2 v) ^ 2 + (py b1 (u * b1.H) - py b2 v) ^ 2 + (pz b1 (u * b1.H) - pz b2 v) ^ 2

/-- The same for the image of the source, mirrored at the ground surface. -/
def dist2img (b1 b2 : Borehole) (u v : ℝ) : ℝ := (px b1 (u * b1.H) - px b2 v) ^ 2 + (py b1 (u * b1.H) - py b2 v) ^ 2 + (-pz b1 (u * b1.H) - pz b2 v) ^ 2

/-- What is added to the squares of distances when the heads of the boreholes are closer than the radius of the source. -/
def gap (b1 b2 : Borehole) : ℝ := max 0 (b1.rb ^ 2 - ((b1.x - b2.x) ^ 2 + (b1.y - b2.y) ^ 2))

/-- Weighted sum over the nodes of the means over the receiver of `f` of the distances. -/
def nodesMean (b1 b2 : Borehole) (nodes : List (ℝ × ℝ)) (f : ℝ → ℝ) (d2 : ℝ → ℝ → ℝ) : ℝ :=
  (nodes.map fun n => n.2 * b1.H * ((∫ v in (0 : ℝ)..b2.H, f √(d2 n.1 v)) / b2.H)).sum

/-- The nodes of the source (real and image) do not lie on the receiver. -/
structure Apart (b1 b2 : Borehole) (nodes : List (ℝ × ℝ)) : Prop where
  H2 : 0 < b2.H
  rea : ∀ n ∈ nodes, ∀ v ∈ Set.Icc 0 b2.H, 0 < dist2 b1 b2 n.1 v + gap b1 b2
  img : ∀ n ∈ nodes, ∀ v ∈ Set.Icc 0 b2.H, 0 < dist2img b1 b2 n.1 v

theorem gap_nonneg (b1 b2 : Borehole) : 0 ≤ gap b1 b2 := le_max_left _ _

theorem rr_eq (b1 b2 : Borehole) : rr b1 b2 = dx b1 b2 ^ 2 + dy b1 b2 ^ 2 + gap b1 b2 := by
  unfold rr gap dx dy
  rcases le_total (b1.rb ^ 2) ((b1.x - b2.x) ^ 2 + (b1.y - b2.y) ^ 2) with h | h
  · rw [max_eq_left h, max_eq_left (by linarith)]; ring
  · rw [max_eq_right h, max_eq_right (by linarith)]; ring

theorem dist2_nonneg (b1 b2 : Borehole) (u v : ℝ) : 0 ≤ dist2 b1 b2 u v := by unfold dist2; positivity
theorem dist2img_nonneg (b1 b2 : Borehole) (u v : ℝ) : 0 ≤ dist2img b1 b2 u v := by unfold dist2img; positivity

theorem Q_rea (b1 b2 : Borehole) (e u v : ℝ) :
    Q (dx b1 b2 ^ 2 + dy b1 b2 ^ 2 + e) (dzRea b1 b2) (kRea0 b1 b2) (kRea1 b1 b2) (kRea2 b1 b2) b1.H u v = dist2 b1 b2 u v + e := by
  unfold Q dist2 px py pz dx dy dzRea kRea0 kRea1 kRea2 dx dy dzRea
  rw [cos_sub]
  have a1 := sin_sq_add_cos_sq b1.tilt
  have a2 := sin_sq_add_cos_sq b2.tilt
  have o1 := sin_sq_add_cos_sq b1.orientation
  have o2 := sin_sq_add_cos_sq b2.orientation
  linear_combination (-(u * b1.H) ^ 2) * a1 - v ^ 2 * a2 - (u * b1.H) ^ 2 * sin b1.tilt ^ 2 * o1 - v ^ 2 * sin b2.tilt ^ 2 * o2

theorem Q_img (b1 b2 : Borehole) (e u v : ℝ) :
    Q (dx b1 b2 ^ 2 + dy b1 b2 ^ 2 + e) (dzImg b1 b2) (kImg0 b1 b2) (kImg1 b1 b2) (kImg2 b1 b2) b1.H u v = dist2img b1 b2 u v + e := by
  unfold Q dist2img px py pz dx dy dzImg kImg0 kImg1 kImg2 dx dy dzImg
  rw [cos_sub]
  have a1 := sin_sq_add_cos_sq b1.tilt
  have a2 := sin_sq_add_cos_sq b2.tilt
  have o1 := sin_sq_add_cos_sq b1.orientation
  have o2 := sin_sq_add_cos_sq b2.orientation
  linear_combination (-(u * b1.H) ^ 2) * a1 - v ^ 2 * a2 - (u * b1.H) ^ 2 * sin b1.tilt ^ 2 * o1 - v ^ 2 * sin b2.tilt ^ 2 * o2

/-! ### Sums over the nodes -/

/-- The real (`e` added to the square of the distance) and image parts of the integrand. -/
def reaPart (b1 b2 : Borehole) (e : ℝ) (n : ℝ × ℝ) (s : ℝ) : ℝ :=
  1 / s * node (dx b1 b2 ^ 2 + dy b1 b2 ^ 2 + e) (dzRea b1 b2) (kRea0 b1 b2) (kRea1 b1 b2) (kRea2 b1 b2) b1.H b2.H n.1 s
def imgPart (b1 b2 : Borehole) (e : ℝ) (n : ℝ × ℝ) (s : ℝ) : ℝ :=
  1 / s * node (dx b1 b2 ^ 2 + dy b1 b2 ^ 2 + e) (dzImg b1 b2) (kImg0 b1 b2) (kImg1 b1 b2) (kImg2 b1 b2) b1.H b2.H n.1 s

def total (H1 : ℝ) (nodes : List (ℝ × ℝ)) (f : ℝ × ℝ → ℝ → ℝ) (s : ℝ) : ℝ := (nodes.map fun n => n.2 * H1 * f n s).sum

theorem total_integrableOn {H1 a : ℝ} {nodes : List (ℝ × ℝ)} {f : ℝ × ℝ → ℝ → ℝ} (hf : ∀ n ∈ nodes, IntegrableOn (f n) (Set.Ioi a)) :
    IntegrableOn (total H1 nodes f) (Set.Ioi a) := by
  induction nodes with
  | nil => exact integrableOn_zero
  | cons n l ih =>
    rw [show total H1 (n :: l) f = fun s => n.2 * H1 * f n s + total H1 l f s from by funext s; simp [total]]
    exact ((hf n List.mem_cons_self).const_mul _).add (ih fun m hm => hf m (List.mem_cons_of_mem _ hm))

theorem total_integral {H1 a : ℝ} {nodes : List (ℝ × ℝ)} {f : ℝ × ℝ → ℝ → ℝ} (hf : ∀ n ∈ nodes, IntegrableOn (f n) (Set.Ioi a)) :
    ∫ s in Set.Ioi a, total H1 nodes f s = (nodes.map fun n => n.2 * H1 * ∫ s in Set.Ioi a, f n s).sum := by
  induction nodes with
  | nil => simp [total]
  | cons n l ih =>
    rw [show total H1 (n :: l) f = fun s => n.2 * H1 * f n s + total H1 l f s from by funext s; simp [total]]
    have hl : ∀ m ∈ l, IntegrableOn (f m) (Set.Ioi a) := fun m hm => hf m (List.mem_cons_of_mem _ hm)
    rw [integral_add ((hf n List.mem_cons_self).const_mul _) (total_integrableOn hl), integral_const_mul, ih hl]
    simp

theorem integrand_rea (b1 b2 : Borehole) (nodes : List (ℝ × ℝ)) : integrand b1 b2 nodes true false = total b1.H nodes (reaPart b1 b2 (gap b1 b2)) := by
  funext s
  simp only [integrand, total, reaPart, rr_eq, Bool.and_false, Bool.false_eq_true, if_false, if_true]
  congr 1; apply List.map_congr_left; intro n _; ring

theorem integrand_img (b1 b2 : Borehole) (nodes : List (ℝ × ℝ)) : integrand b1 b2 nodes false true = fun s => -total b1.H nodes (imgPart b1 b2 0) s := by
  funext s
  simp only [integrand, total, imgPart, add_zero, Bool.and_true, Bool.false_eq_true, if_false, if_true]
  congr 2; apply List.map_congr_left; intro n _; ring

theorem integrand_all (b1 b2 : Borehole) (nodes : List (ℝ × ℝ)) :
    integrand b1 b2 nodes true true = fun s => total b1.H nodes (reaPart b1 b2 (gap b1 b2)) s - total b1.H nodes (imgPart b1 b2 (gap b1 b2)) s := by
  funext s
  simp only [integrand, total, reaPart, imgPart, rr_eq, Bool.and_self, if_true]
  induction nodes with
  | nil => simp
  | cons n l ih => simp only [List.map_cons, List.sum_cons, ih]; ring

section
variable {b1 b2 : Borehole} {nodes : List (ℝ × ℝ)} (h : Apart b1 b2 nodes) {a : ℝ} (ha : 0 ≤ a)
include h ha

theorem rea_int {n : ℝ × ℝ} (hn : n ∈ nodes) : IntegrableOn (reaPart b1 b2 (gap b1 b2) n) (Set.Ioi a) :=
  node_integrableOn h.H2.le (fun v hv => by rw [Q_rea]; exact h.rea n hn v hv) ha

theorem img_int {e : ℝ} (he : 0 ≤ e) {n : ℝ × ℝ} (hn : n ∈ nodes) : IntegrableOn (imgPart b1 b2 e n) (Set.Ioi a) :=
  node_integrableOn h.H2.le (fun v hv => by rw [Q_img]; linarith [h.img n hn v hv]) ha

theorem integrand_integrableOn (rea img : Bool) : IntegrableOn (integrand b1 b2 nodes rea img) (Set.Ioi a) := by
  have r := total_integrableOn (H1 := b1.H) fun n hn => rea_int h ha (n := n) hn
  have i := fun e (he : 0 ≤ e) => total_integrableOn (H1 := b1.H) fun n hn => img_int h ha he (n := n) hn
  cases rea <;> cases img
  · rw [show integrand b1 b2 nodes false false = fun _ => 0 from by funext s; simp [integrand]]; exact integrableOn_zero
  · rw [integrand_img]; exact (i 0 le_rfl).neg
  · rw [integrand_rea]; exact r
  · rw [integrand_all]; exact r.sub (i _ (gap_nonneg _ _))

/-- Half the mean of `(1 - erf (a ρ)) / ρ`. -/
theorem rea_total : 0.5 / b2.H * ∫ s in Set.Ioi a, total b1.H nodes (reaPart b1 b2 (gap b1 b2)) s
    = nodesMean b1 b2 nodes (fun ρ => (1 - erf (a * ρ)) / ρ) (fun u v => dist2 b1 b2 u v + gap b1 b2) / 2 := by
  rw [total_integral fun n hn => rea_int h ha hn, nodesMean, ← List.sum_map_mul_left, div_eq_mul_inv _ (2 : ℝ), ← List.sum_map_mul_right]
  congr 1; apply List.map_congr_left; intro n hn
  unfold reaPart
  rw [node_integral h.H2.le (fun v hv => by rw [Q_rea]; exact h.rea n hn v hv) ha]
  simp only [Q_rea]
  ring

theorem img_total {e : ℝ} (he : 0 ≤ e) : 0.5 / b2.H * ∫ s in Set.Ioi a, total b1.H nodes (imgPart b1 b2 e) s
    = nodesMean b1 b2 nodes (fun ρ => (1 - erf (a * ρ)) / ρ) (fun u v => dist2img b1 b2 u v + e) / 2 := by
  rw [total_integral fun n hn => img_int h ha he hn, nodesMean, ← List.sum_map_mul_left, div_eq_mul_inv _ (2 : ℝ), ← List.sum_map_mul_right]
  congr 1; apply List.map_congr_left; intro n hn
  unfold imgPart
  rw [node_integral h.H2.le (fun v hv => by rw [Q_img]; linarith [h.img n hn v hv]) ha]
  simp only [Q_img]
  ring

end

/-! ### C76 -/

/-- **C76**.  The solution is half the weighted sum, over the nodes of the source, of the mean over the receiver of the temperature of a continuous point source,
minus that of the images above ground.  When the heads are closer than the radius of the source, the squares of the distances to the sources are enlarged; with both
sources also those to the images, with the image source alone they are not. -/
theorem inclined_points (t alpha : ℝ) {b1 b2 : Borehole} {nodes : List (ℝ × ℝ)} (h : Apart b1 b2 nodes) :
    fls t alpha b1 b2 nodes true false = nodesMean b1 b2 nodes (pointSource alpha t) (fun u v => dist2 b1 b2 u v + gap b1 b2) / 2 ∧
    fls t alpha b1 b2 nodes false true = -nodesMean b1 b2 nodes (pointSource alpha t) (dist2img b1 b2) / 2 ∧
    fls t alpha b1 b2 nodes true true = (nodesMean b1 b2 nodes (pointSource alpha t) (fun u v => dist2 b1 b2 u v + gap b1 b2)
      - nodesMean b1 b2 nodes (pointSource alpha t) (fun u v => dist2img b1 b2 u v + gap b1 b2)) / 2 := by
  have hp : pointSource alpha t = fun ρ => (1 - erf (lower alpha t * ρ)) / ρ := by
    funext ρ; unfold pointSource lower; rw [erfc_eq]; congr 3; ring
  have hl := lower_nonneg alpha t
  have r := rea_total h hl
  have i := img_total h hl le_rfl
  have ig := img_total h hl (gap_nonneg b1 b2)
  simp only [add_zero] at i
  refine ⟨?_, ?_, ?_⟩
  · unfold fls quad; simp only; rw [integrand_rea, r, hp]
  · unfold fls quad; simp only; rw [integrand_img, integral_neg, mul_neg, i, hp]; ring
  · unfold fls quad; simp only
    rw [integrand_all, integral_sub (total_integrableOn fun n hn => rea_int h hl hn) (total_integrableOn fun n hn => img_int h hl (gap_nonneg _ _) hn), mul_sub, r, ig, hp]
    ring

/-! ### C22 -/

/-- **C22**, partial: the parts add up when the heads are not closer than the radius of the source.  Missing: the other pairs, in particular a borehole acting on
itself, for which this fails (`inclined_real_plus_image_fails`). -/
theorem inclined_real_plus_image_partial (t alpha : ℝ) {b1 b2 : Borehole} {nodes : List (ℝ × ℝ)} (h : Apart b1 b2 nodes)
    (hr : b1.rb ^ 2 ≤ (b1.x - b2.x) ^ 2 + (b1.y - b2.y) ^ 2) :
    fls t alpha b1 b2 nodes true true = fls t alpha b1 b2 nodes true false + fls t alpha b1 b2 nodes false true ∧ fls t alpha b1 b2 nodes false false = 0 := by
  obtain ⟨h1, h2, h3⟩ := inclined_points t alpha h
  have hg : gap b1 b2 = 0 := max_eq_left (by linarith)
  constructor
  · rw [h1, h2, h3, hg]; simp only [add_zero]; ring
  · unfold fls quad; simp [integrand]

theorem imgPart_lt {b1 b2 : Borehole} (hH : 0 < b2.H) {e : ℝ} (he : 0 < e) (n : ℝ × ℝ) {s : ℝ} (hs : 0 < s) : imgPart b1 b2 e n s < imgPart b1 b2 0 n s := by
  have h0 : 0 < imgPart b1 b2 0 n s := node_pos hH hs
  have e1 : imgPart b1 b2 e n s = exp (-e * s ^ 2) * imgPart b1 b2 0 n s := by
    unfold imgPart node
    rw [mul_left_comm (exp (-e * s ^ 2)), ← mul_assoc (exp (-e * s ^ 2)), ← exp_add]
    congr 3; ring
  have e2 : exp (-e * s ^ 2) < 1 := by rw [exp_lt_one_iff]; have := mul_pos he (pow_pos hs 2); linarith
  rw [e1]; nlinarith

theorem total_lt {H1 : ℝ} (hH : 0 < H1) {nodes : List (ℝ × ℝ)} (hne : nodes ≠ []) (hw : ∀ n ∈ nodes, 0 < n.2) {f g : ℝ × ℝ → ℝ → ℝ} {s : ℝ} (hfg : ∀ n, f n s < g n s) :
    total H1 nodes f s < total H1 nodes g s :=
  List.sum_lt_sum_of_ne_nil hne _ _ fun n hn => mul_lt_mul_of_pos_left (hfg n) (mul_pos (hw n hn) hH)

/-- The image parts with and without enlarged distances differ at all times. -/
theorem img_gap_lt {b1 b2 : Borehole} {nodes : List (ℝ × ℝ)} (h : Apart b1 b2 nodes) (h1 : 0 < b1.H) (hne : nodes ≠ []) (hw : ∀ n ∈ nodes, 0 < n.2)
    (hg : 0 < gap b1 b2) {a : ℝ} (ha : 0 ≤ a) :
    ∫ s in Set.Ioi a, total b1.H nodes (imgPart b1 b2 (gap b1 b2)) s < ∫ s in Set.Ioi a, total b1.H nodes (imgPart b1 b2 0) s := by
  have i0 := fun a (ha : 0 ≤ a) => total_integrableOn (H1 := b1.H) fun n hn => img_int h (a := a) ha le_rfl (n := n) hn
  have ig := fun a (ha : 0 ≤ a) => total_integrableOn (H1 := b1.H) fun n hn => img_int h (a := a) ha (gap_nonneg b1 b2) (n := n) hn
  have := tail_pos (f := fun s => total b1.H nodes (imgPart b1 b2 0) s - total b1.H nodes (imgPart b1 b2 (gap b1 b2)) s) (fun a ha => (i0 a ha).sub (ig a ha))
    (fun s hs => sub_pos.mpr (total_lt h1 hne hw fun n => imgPart_lt h.H2 hg n hs)) ha
  have e : quad (fun s => total b1.H nodes (imgPart b1 b2 0) s - total b1.H nodes (imgPart b1 b2 (gap b1 b2)) s) a none
      = ∫ s in Set.Ioi a, (total b1.H nodes (imgPart b1 b2 0) s - total b1.H nodes (imgPart b1 b2 (gap b1 b2)) s) := rfl
  rw [e, integral_sub (i0 a ha) (ig a ha)] at this
  linarith

/-- **C22** fails: for a borehole that acts on itself, the solution with both sources exceeds the sum of its parts, at all times. -/
theorem inclined_real_plus_image_fails (t alpha : ℝ) {b : Borehole} {nodes : List (ℝ × ℝ)} (hH : 0 < b.H) (hD : 0 < b.D) (hrb : 0 < b.rb) (hc : 0 ≤ cos b.tilt)
    (hne : nodes ≠ []) (hn : ∀ n ∈ nodes, 0 ≤ n.1 ∧ 0 < n.2) :
    fls t alpha b b nodes true false + fls t alpha b b nodes false true < fls t alpha b b nodes true true := by
  have hg : 0 < gap b b := lt_max_of_lt_right (by simp; positivity)
  have h : Apart b b nodes := by
    refine ⟨hH, fun n _ v _ => by linarith [dist2_nonneg b b n.1 v], fun n hm v hv => ?_⟩
    have : 0 < pz b (n.1 * b.H) + pz b v := by
      have := mul_nonneg (mul_nonneg (hn n hm).1 hH.le) hc
      have := mul_nonneg hv.1 hc
      unfold pz; linarith
    unfold dist2img
    have h2 : 0 < (-pz b (n.1 * b.H) - pz b v) ^ 2 := by rw [show -pz b (n.1 * b.H) - pz b v = -(pz b (n.1 * b.H) + pz b v) by ring, neg_sq]; positivity
    positivity
  have hl := lower_nonneg alpha t
  have := img_gap_lt h hH hne (fun n hm => (hn n hm).2) hg hl
  unfold fls quad
  simp only
  rw [integrand_rea, integrand_img, integrand_all, integral_neg,
    integral_sub (total_integrableOn fun n hn => rea_int h hl hn) (total_integrableOn fun n hn => img_int h hl (gap_nonneg _ _) hn)]
  have := mul_lt_mul_of_pos_left this (show 0 < 0.5 / b.H by positivity)
  linarith

/-! ### C23 -/

/-- **C23** for inclined boreholes. -/
theorem inclined_times_vector (times : List ℝ) (alpha : ℝ) {b1 b2 : Borehole} {nodes : List (ℝ × ℝ)} (h : Apart b1 b2 nodes) (rea img : Bool) :
    flsMany times alpha b1 b2 nodes rea img = times.map fun t => fls t alpha b1 b2 nodes rea img := by
  unfold flsMany
  dsimp only
  rw [many_eq (fun a ha => integrand_integrableOn h ha rea img) _ (by intro a ha; obtain ⟨t, -, rfl⟩ := List.mem_map.mp ha; exact lower_nonneg _ _), List.map_map]
  rfl

/-! ### C77 -/

theorem tendsto_quad {alpha : ℝ} (ha : 0 < alpha) {f : ℝ → ℝ} (hf : ∀ a, 0 ≤ a → IntegrableOn f (Set.Ioi a)) :
    Filter.Tendsto (fun t => quad f (lower alpha t) none) Filter.atTop (nhds (quad f 0 none)) := by
  have hlow : Filter.Tendsto (lower alpha) Filter.atTop (nhds 0) := by
    unfold lower
    have h1 : Filter.Tendsto (fun t : ℝ => √(4 * alpha * t)) Filter.atTop Filter.atTop :=
      tendsto_sqrt_atTop.comp (Filter.Tendsto.const_mul_atTop (by positivity) Filter.tendsto_id)
    simp only [one_div]
    exact h1.inv_tendsto_atTop
  have hcont : Filter.Tendsto (fun a => ∫ s in (0 : ℝ)..a, (Set.indicator (Set.Ioi 0) f) s) (nhds 0) (nhds 0) := by
    have hint : Integrable (Set.indicator (Set.Ioi 0) f) := (hf 0 le_rfl).integrable_indicator measurableSet_Ioi
    have := (intervalIntegral.continuous_primitive (fun a b => hint.intervalIntegrable) 0).tendsto 0
    simpa using this
  have hq : ∀ t, quad f (lower alpha t) none = quad f 0 none - ∫ s in (0 : ℝ)..lower alpha t, (Set.indicator (Set.Ioi 0) f) s := fun t => by
    rw [← quad_tail hf le_rfl (lower_nonneg alpha t)]
    have : ∫ s in (0 : ℝ)..lower alpha t, (Set.indicator (Set.Ioi 0) f) s = quad f 0 (some (lower alpha t)) := by
      show _ = ∫ s in (0 : ℝ)..lower alpha t, f s
      rw [intervalIntegral.integral_of_le (lower_nonneg _ _), intervalIntegral.integral_of_le (lower_nonneg _ _)]
      refine setIntegral_congr_fun measurableSet_Ioc fun s hs => ?_
      exact Set.indicator_of_mem hs.1 _
    rw [this]; ring
  simp only [hq]
  have := (tendsto_const_nhds (x := quad f 0 none)).sub (hcont.comp hlow)
  rwa [sub_zero] at this

theorem Q_square (rr dz k0 k1 k2 H1 u v : ℝ) :
    Q rr dz k0 k1 k2 H1 u v = Q rr dz k0 k1 k2 H1 u (u * H1 * k0 + k2) + (v - (u * H1 * k0 + k2)) ^ 2 := by unfold Q; ring

/-- The nodes are not on the infinite line through the receiver either. -/
structure Off (b1 b2 : Borehole) (nodes : List (ℝ × ℝ)) : Prop where
  H2 : 0 < b2.H
  rea : ∀ n ∈ nodes, ∀ v, 0 < dist2 b1 b2 n.1 v + gap b1 b2
  img : ∀ n ∈ nodes, ∀ v, 0 < dist2img b1 b2 n.1 v

theorem Off.apart {b1 b2 : Borehole} {nodes : List (ℝ × ℝ)} (h : Off b1 b2 nodes) : Apart b1 b2 nodes :=
  ⟨h.H2, fun n hn v _ => h.rea n hn v, fun n hn v _ => h.img n hn v⟩

section
variable {b1 b2 : Borehole} {nodes : List (ℝ × ℝ)} (h : Off b1 b2 nodes)
include h

theorem steady_rea {n : ℝ × ℝ} (hn : n ∈ nodes) :
    steadyNode (rr b1 b2) (dzRea b1 b2) (kRea0 b1 b2) (kRea1 b1 b2) (kRea2 b1 b2) b1.H b2.H n.1 = ∫ v in (0 : ℝ)..b2.H, 1 / √(dist2 b1 b2 n.1 v + gap b1 b2) := by
  rw [rr_eq, steadyNode_eq h.H2 (by rw [Q_rea]; exact h.rea n hn _) (Q_square _ _ _ _ _ _ _)]
  simp only [Q_rea]

theorem steady_img {n : ℝ × ℝ} (hn : n ∈ nodes) :
    steadyNode (dx b1 b2 ^ 2 + dy b1 b2 ^ 2) (dzImg b1 b2) (kImg0 b1 b2) (kImg1 b1 b2) (kImg2 b1 b2) b1.H b2.H n.1 = ∫ v in (0 : ℝ)..b2.H, 1 / √(dist2img b1 b2 n.1 v) := by
  rw [← add_zero (dx b1 b2 ^ 2 + dy b1 b2 ^ 2), steadyNode_eq h.H2 (by rw [Q_img, add_zero]; exact h.img n hn _) (Q_square _ _ _ _ _ _ _)]
  simp only [Q_img]
  simp only [add_zero]

/-- The closed form that is returned for infinite time is half the mean of the inverse of the distances. -/
theorem inclined_steady :
    steady b1 b2 nodes true false = nodesMean b1 b2 nodes (fun ρ => 1 / ρ) (fun u v => dist2 b1 b2 u v + gap b1 b2) / 2 ∧
    steady b1 b2 nodes false true = -nodesMean b1 b2 nodes (fun ρ => 1 / ρ) (dist2img b1 b2) / 2 ∧
    steady b1 b2 nodes true true = (nodesMean b1 b2 nodes (fun ρ => 1 / ρ) (fun u v => dist2 b1 b2 u v + gap b1 b2)
      - nodesMean b1 b2 nodes (fun ρ => 1 / ρ) (dist2img b1 b2)) / 2 := by
  have r : steady b1 b2 nodes true false = nodesMean b1 b2 nodes (fun ρ => 1 / ρ) (fun u v => dist2 b1 b2 u v + gap b1 b2) / 2 := by
    simp only [steady, nodesMean, Bool.and_false, Bool.false_eq_true, if_false, if_true]
    rw [← List.sum_map_mul_left, div_eq_mul_inv _ (2 : ℝ), ← List.sum_map_mul_right]
    congr 1; apply List.map_congr_left; intro n hn; rw [steady_rea h hn]; ring
  have i : steady b1 b2 nodes false true = -nodesMean b1 b2 nodes (fun ρ => 1 / ρ) (dist2img b1 b2) / 2 := by
    simp only [steady, nodesMean, Bool.and_true, Bool.false_eq_true, if_false, if_true]
    rw [← List.sum_map_mul_left, neg_div, ← div_neg, div_eq_mul_inv _ (-2 : ℝ), ← List.sum_map_mul_right]
    congr 1; apply List.map_congr_left; intro n hn; rw [steady_img h hn]; ring
  refine ⟨r, i, ?_⟩
  have : steady b1 b2 nodes true true = steady b1 b2 nodes true false + steady b1 b2 nodes false true := by
    simp only [steady, Bool.and_self, Bool.and_true, Bool.and_false, Bool.false_eq_true, if_false, if_true]
    rw [← mul_add, ← List.sum_map_add]
    congr 2; apply List.map_congr_left; intro n _; ring
  rw [this, r, i]; ring

omit h in
theorem erf_at_zero (ρ : ℝ) : (1 - erf (0 * ρ)) / ρ = 1 / ρ := by simp [erf]

/-- **C77**, partial: the response tends to the closed form that is returned for infinite time, for the real source, for the image source, and for both when the
heads are not closer than the radius of the source.  Missing: both sources with heads closer than the radius, for which this fails
(`inclined_tends_to_steady_fails`), and nodes in line with the receiver. -/
theorem inclined_tends_to_steady_partial {alpha : ℝ} (ha : 0 < alpha) (rea img : Bool)
    (hr : rea = true → img = true → b1.rb ^ 2 ≤ (b1.x - b2.x) ^ 2 + (b1.y - b2.y) ^ 2) :
    Filter.Tendsto (fun t => fls t alpha b1 b2 nodes rea img) Filter.atTop (nhds (steady b1 b2 nodes rea img)) := by
  have key : steady b1 b2 nodes rea img = 0.5 / b2.H * quad (integrand b1 b2 nodes rea img) 0 none := by
    have r := rea_total h.apart le_rfl
    have i := img_total h.apart le_rfl le_rfl
    simp only [erf_at_zero, add_zero] at r i
    obtain ⟨s1, s2, s3⟩ := inclined_steady h
    unfold quad
    cases rea <;> cases img <;> simp only
    · simp [steady, integrand]
    · rw [integrand_img, integral_neg, mul_neg, i, s2]; ring
    · rw [integrand_rea, r, s1]
    · have hg : gap b1 b2 = 0 := max_eq_left (by linarith [hr rfl rfl])
      rw [integrand_all, integral_sub (total_integrableOn fun n hn => rea_int h.apart le_rfl hn)
        (total_integrableOn fun n hn => img_int h.apart le_rfl (gap_nonneg _ _) hn), mul_sub, r, s3, hg, i]
      ring
  rw [key]
  exact (tendsto_quad ha fun a h0 => integrand_integrableOn h.apart h0 rea img).const_mul _

/-- **C77** fails with both sources when the heads are closer than the radius: the limit is larger than the closed form. -/
theorem inclined_tends_to_steady_fails {alpha : ℝ} (ha : 0 < alpha) (h1 : 0 < b1.H) (hne : nodes ≠ []) (hw : ∀ n ∈ nodes, 0 < n.2)
    (hr : (b1.x - b2.x) ^ 2 + (b1.y - b2.y) ^ 2 < b1.rb ^ 2) :
    ∃ l, steady b1 b2 nodes true true < l ∧ Filter.Tendsto (fun t => fls t alpha b1 b2 nodes true true) Filter.atTop (nhds l) := by
  refine ⟨_, ?_, (tendsto_quad ha fun a h0 => integrand_integrableOn h.apart h0 true true).const_mul _⟩
  have hg : 0 < gap b1 b2 := lt_max_of_lt_right (by linarith)
  have r := rea_total h.apart le_rfl
  have i := img_total h.apart le_rfl le_rfl
  simp only [erf_at_zero, add_zero] at r i
  have lt := mul_lt_mul_of_pos_left (img_gap_lt h.apart h1 hne hw hg le_rfl) (show 0 < 0.5 / b2.H by have := h.H2; positivity)
  rw [(inclined_steady h).2.2]
  unfold quad
  simp only
  rw [integrand_all, integral_sub (total_integrableOn fun n hn => rea_int h.apart le_rfl hn)
    (total_integrableOn fun n hn => img_int h.apart le_rfl (gap_nonneg _ _) hn), mul_sub, r]
  linarith

end

/-! ### Cases that meet the hypotheses -/

/-- Two boreholes 5 m apart, inclined by 0.5 rad in opposite directions. -/
def sample1 : Borehole := ⟨100, 4, 0.075, 0, 0, 0.5, π⟩
def sample2 : Borehole := ⟨150, 2, 0.075, 5, 0, 0.5, 0⟩

/-- A borehole on itself with one node in its middle. -/
theorem off_self {b : Borehole} {nodes : List (ℝ × ℝ)} (hH : 0 < b.H) (hD : 0 < b.D) (hrb : 0 < b.rb) (hc : 0 ≤ cos b.tilt) (hs : sin b.tilt ≠ 0)
    (hn : ∀ n ∈ nodes, 0 ≤ n.1) : Off b b nodes := by
  have hg : 0 < gap b b := lt_max_of_lt_right (by simp; positivity)
  refine ⟨hH, fun n _ v => by linarith [dist2_nonneg b b n.1 v], fun n hm v => ?_⟩
  have e : dist2img b b n.1 v = ((n.1 * b.H - v) * sin b.tilt) ^ 2 + (-pz b (n.1 * b.H) - pz b v) ^ 2 := by
    unfold dist2img px py
    linear_combination ((n.1 * b.H - v) * sin b.tilt) ^ 2 * sin_sq_add_cos_sq b.orientation
  rw [e]
  rcases eq_or_ne (n.1 * b.H) v with hv | hv
  · have : 0 < pz b v := by
      have := mul_nonneg (mul_nonneg (hn n hm) hH.le) hc
      unfold pz; rw [← hv]; linarith
    rw [hv]
    nlinarith
  · have : (n.1 * b.H - v) * sin b.tilt ≠ 0 := mul_ne_zero (sub_ne_zero.mpr hv) hs
    positivity

theorem sample_sin : 0 < sin (0.5 : ℝ) := sin_pos_of_pos_of_lt_pi (by norm_num) (by linarith [pi_gt_three])
theorem sample_cos : 0 < cos (0.5 : ℝ) := cos_pos_of_mem_Ioo ⟨by linarith [pi_gt_three], by linarith [pi_gt_three]⟩

theorem sample_self : Off sample1 sample1 [(0.5, 1)] :=
  off_self (by norm_num [sample1]) (by norm_num [sample1]) (by norm_num [sample1]) sample_cos.le sample_sin.ne' (by norm_num)

theorem sample_apart : Apart sample1 sample2 [(0.5, 1)] := by
  have hs := sample_sin
  have hc := sample_cos
  refine ⟨by norm_num [sample2], ?_, ?_⟩ <;> intro n hn v hv <;> simp only [List.mem_singleton] at hn <;> subst hn <;> have hv0 := hv.1
  · have hx : px sample1 (0.5 * sample1.H) - px sample2 v < 0 := by
      simp only [px, sample1, sample2, cos_pi, cos_zero]
      nlinarith [mul_nonneg hv0 hs.le]
    have := gap_nonneg sample1 sample2
    have := pow_pos (neg_pos.mpr hx) 2
    rw [neg_sq] at this
    unfold dist2
    positivity
  · have hx : px sample1 (0.5 * sample1.H) - px sample2 v < 0 := by
      simp only [px, sample1, sample2, cos_pi, cos_zero]
      nlinarith [mul_nonneg hv0 hs.le]
    have := pow_pos (neg_pos.mpr hx) 2
    rw [neg_sq] at this
    unfold dist2img
    positivity

example (t alpha : ℝ) : fls t alpha sample1 sample2 [(0.5, 1)] true true = fls t alpha sample1 sample2 [(0.5, 1)] true false + fls t alpha sample1 sample2 [(0.5, 1)] false true :=
  (inclined_real_plus_image_partial t alpha sample_apart (by norm_num [sample1, sample2])).1

example (t alpha : ℝ) : fls t alpha sample1 sample1 [(0.5, 1)] true false + fls t alpha sample1 sample1 [(0.5, 1)] false true < fls t alpha sample1 sample1 [(0.5, 1)] true true :=
  inclined_real_plus_image_fails t alpha (by norm_num [sample1]) (by norm_num [sample1]) (by norm_num [sample1]) sample_cos.le (by simp) (by norm_num)

example (t alpha : ℝ) := inclined_points t alpha sample_apart
example (times : List ℝ) (alpha : ℝ) := inclined_times_vector times alpha sample_apart true true
example := inclined_tends_to_steady_partial sample_self (alpha := 1e-6) (by norm_num) true false (by simp)
example := inclined_tends_to_steady_fails sample_self (alpha := 1e-6) (by norm_num) (by norm_num [sample1]) (by simp) (by simp) (by norm_num [sample1])

end Verif.FLS.Incl
