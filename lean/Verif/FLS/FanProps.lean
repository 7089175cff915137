import Verif.FLS.InclProps

/-!
# Comparison of pairs of inclined boreholes

A pair whose distances, real and image, are larger has the smaller response; equal projections on the line joining the heads do not determine the response.
-/

noncomputable section

namespace Verif.FLS.Incl

open Real MeasureTheory Bore

theorem reaPart_eq (b1 b2 : Borehole) (e : ℝ) (n : ℝ × ℝ) {s : ℝ} (hs : s ≠ 0) :
    reaPart b1 b2 e n s = 2 / √π * ∫ v in (0 : ℝ)..b2.H, exp (-(dist2 b1 b2 n.1 v + e) * s ^ 2) := by
  unfold reaPart
  rw [node_eq _ _ _ _ _ _ _ _ hs]
  simp only [Q_rea]

theorem imgPart_eq (b1 b2 : Borehole) (e : ℝ) (n : ℝ × ℝ) {s : ℝ} (hs : s ≠ 0) :
    imgPart b1 b2 e n s = 2 / √π * ∫ v in (0 : ℝ)..b2.H, exp (-(dist2img b1 b2 n.1 v + e) * s ^ 2) := by
  unfold imgPart
  rw [node_eq _ _ _ _ _ _ _ _ hs]
  simp only [Q_img]

theorem dist2_continuous (b1 b2 : Borehole) (u : ℝ) : Continuous (dist2 b1 b2 u) := by unfold dist2 px py pz; fun_prop
theorem dist2img_continuous (b1 b2 : Borehole) (u : ℝ) : Continuous (dist2img b1 b2 u) := by unfold dist2img px py pz; fun_prop

/-- If all squares of distances, to sources and to images, are larger by the same amounts, the response is smaller. -/
theorem farther_smaller (t alpha : ℝ) {b1 b2 c1 c2 : Borehole} {nodes : List (ℝ × ℝ)} (hb : Apart b1 b2 nodes) (hc : Apart c1 c2 nodes) (hne : nodes ≠ []) (hw : ∀ n ∈ nodes, 0 < n.2)
    (h1 : 0 < b1.H) (e1 : c1.H = b1.H) (e2 : c2.H = b2.H) {δ : ℝ → ℝ → ℝ} (hδ : ∀ n ∈ nodes, ∀ v ∈ Set.Ioo 0 b2.H, 0 < δ n.1 v)
    (hr : ∀ u v, dist2 c1 c2 u v + gap c1 c2 = dist2 b1 b2 u v + gap b1 b2 + δ u v) (hi : ∀ u v, dist2img c1 c2 u v + gap c1 c2 = dist2img b1 b2 u v + gap b1 b2 + δ u v)
    (hlt : ∀ n ∈ nodes, ∀ v ∈ Set.Ioo 0 b2.H, dist2 b1 b2 n.1 v < dist2img b1 b2 n.1 v) : fls t alpha c1 c2 nodes true true < fls t alpha b1 b2 nodes true true := by
  have hl := lower_nonneg alpha t
  have ib := fun a (ha : 0 ≤ a) => integrand_integrableOn hb (a := a) ha true true
  have ic := fun a (ha : 0 ≤ a) => integrand_integrableOn hc (a := a) ha true true
  have key : ∀ s, 0 < s → 0 < integrand b1 b2 nodes true true s - integrand c1 c2 nodes true true s := by
    intro s hs
    rw [integrand_all, integrand_all]
    simp only [total, e1]
    rw [sub_pos, sub_lt_sub_iff, ← List.sum_map_add, ← List.sum_map_add]
    refine List.sum_lt_sum_of_ne_nil hne _ _ fun n hn => ?_
    rw [← mul_add, ← mul_add]
    refine mul_lt_mul_of_pos_left ?_ (mul_pos (hw n hn) h1)
    rw [reaPart_eq _ _ _ _ hs.ne', reaPart_eq _ _ _ _ hs.ne', imgPart_eq _ _ _ _ hs.ne', imgPart_eq _ _ _ _ hs.ne', e2]
    simp only [hr, hi]
    have hδc : Continuous (δ n.1) := by
      have : δ n.1 = fun v => dist2 c1 c2 n.1 v + gap c1 c2 - (dist2 b1 b2 n.1 v + gap b1 b2) := by funext v; rw [hr]; ring
      rw [this]
      have := dist2_continuous c1 c2 n.1
      have := dist2_continuous b1 b2 n.1
      fun_prop
    have cr := dist2_continuous b1 b2 n.1
    have ci := dist2img_continuous b1 b2 n.1
    obtain ⟨A, hA⟩ : ∃ A : ℝ → ℝ, A = fun v => dist2 b1 b2 n.1 v + gap b1 b2 := ⟨_, rfl⟩
    obtain ⟨B, hB⟩ : ∃ B : ℝ → ℝ, B = fun v => dist2img b1 b2 n.1 v + gap b1 b2 := ⟨_, rfl⟩
    have cA : Continuous A := by rw [hA]; fun_prop
    have cB : Continuous B := by rw [hB]; fun_prop
    have hAB : ∀ v ∈ Set.Ioo 0 b2.H, A v < B v := fun v hv => by rw [hA, hB]; have := hlt n hn v hv; simpa using this
    have i1 : ∀ f : ℝ → ℝ, Continuous f → IntervalIntegrable (fun v => exp (-f v * s ^ 2)) volume 0 b2.H := fun f hf => Continuous.intervalIntegrable (by fun_prop) _ _
    have hpos : 0 < ∫ v in (0 : ℝ)..b2.H, (exp (-A v * s ^ 2) + exp (-(B v + δ n.1 v) * s ^ 2) - (exp (-(A v + δ n.1 v) * s ^ 2) + exp (-B v * s ^ 2))) := by
      refine intervalIntegral.intervalIntegral_pos_of_pos_on (Continuous.intervalIntegrable (by fun_prop) _ _) (fun v hv => ?_) hb.H2
      have e : ∀ x : ℝ, exp (-(x + δ n.1 v) * s ^ 2) = exp (-x * s ^ 2) * exp (-δ n.1 v * s ^ 2) := fun x => by rw [← exp_add]; congr 1; ring
      rw [e, e]
      have h3 : exp (-δ n.1 v * s ^ 2) < 1 := by rw [exp_lt_one_iff]; have := mul_pos (hδ n hn v hv) (pow_pos hs 2); linarith
      have h4 : exp (-B v * s ^ 2) < exp (-A v * s ^ 2) := by
        rw [exp_lt_exp]
        have := mul_lt_mul_of_pos_right (hAB v hv) (pow_pos hs 2)
        linarith
      have := mul_pos (sub_pos.mpr h3) (sub_pos.mpr h4)
      linarith
    rw [intervalIntegral.integral_sub ((i1 A cA).add (i1 (fun v => B v + δ n.1 v) (by fun_prop))) ((i1 (fun v => A v + δ n.1 v) (by fun_prop)).add (i1 B cB)),
      intervalIntegral.integral_add (i1 A cA) (i1 (fun v => B v + δ n.1 v) (by fun_prop)), intervalIntegral.integral_add (i1 (fun v => A v + δ n.1 v) (by fun_prop)) (i1 B cB), sub_pos] at hpos
    rw [← mul_add, ← mul_add]
    have hA' : ∀ v, dist2 b1 b2 n.1 v + gap b1 b2 = A v := fun v => by rw [hA]
    have hB' : ∀ v, dist2img b1 b2 n.1 v + gap b1 b2 = B v := fun v => by rw [hB]
    simp only [hA', hB']
    exact mul_lt_mul_of_pos_left hpos (by have := sqrt_pi_pos; positivity)
  have hp := tail_pos (f := fun s => integrand b1 b2 nodes true true s - integrand c1 c2 nodes true true s) (fun a ha => (ib a ha).sub (ic a ha)) key hl
  have e : quad (fun s => integrand b1 b2 nodes true true s - integrand c1 c2 nodes true true s) (lower alpha t) none =
      quad (integrand b1 b2 nodes true true) (lower alpha t) none - quad (integrand c1 c2 nodes true true) (lower alpha t) none := integral_sub (ib _ hl) (ic _ hl)
  rw [e] at hp
  unfold fls
  rw [e2]
  have := hb.H2
  exact mul_lt_mul_of_pos_left (by linarith) (by positivity)

/-- Two boreholes at the distance `d`, tilted by `β` at right angles to the line that joins them, in the same direction (`σ = 1`) or in opposite directions (`σ = -1`). -/
def fan (H D rb x β σ : ℝ) : Borehole := ⟨H, D, rb, x, 0, β, σ * (π / 2)⟩

variable {H D rb x y β : ℝ}

theorem fan_sin {σ : ℝ} (hσ : σ = 1 ∨ σ = -1) : sin (σ * (π / 2)) = σ ∧ cos (σ * (π / 2)) = 0 := by
  rcases hσ with rfl | rfl
  · simp
  · rw [show -1 * (π / 2) = -(π / 2) by ring, sin_neg, cos_neg, sin_pi_div_two, cos_pi_div_two]; simp

theorem fan_dist2 {σ τ : ℝ} (hσ : σ = 1 ∨ σ = -1) (hτ : τ = 1 ∨ τ = -1) (u v : ℝ) :
    dist2 (fan H D rb x β σ) (fan H D rb y β τ) u v = (x - y) ^ 2 + (sin β * (u * H * σ - v * τ)) ^ 2 + (cos β * (u * H - v)) ^ 2 ∧
    dist2img (fan H D rb x β σ) (fan H D rb y β τ) u v = (x - y) ^ 2 + (sin β * (u * H * σ - v * τ)) ^ 2 + (2 * D + cos β * (u * H + v)) ^ 2 := by
  unfold dist2 dist2img px py pz fan
  simp only [(fan_sin hσ).1, (fan_sin hσ).2, (fan_sin hτ).1, (fan_sin hτ).2]
  constructor <;> ring

theorem fan_gap (hd : rb ^ 2 ≤ (x - y) ^ 2) (σ τ : ℝ) : gap (fan H D rb x β σ) (fan H D rb y β τ) = 0 := by
  unfold gap fan
  exact max_eq_left (by simp only [sub_self]; linarith)

/-- Boreholes tilted in opposite directions respond less to each other than boreholes tilted in the same direction. -/
theorem fan_smaller (t alpha : ℝ) (hH : 0 < H) (hD : 0 < D) (hrb : 0 < rb) (hd : rb ^ 2 ≤ (x - y) ^ 2) {x' y' : ℝ} (hxy : (x' - y') ^ 2 = (x - y) ^ 2) (hs : sin β ≠ 0) (hc : 0 ≤ cos β)
    {nodes : List (ℝ × ℝ)} (hne : nodes ≠ []) (hn : ∀ n ∈ nodes, 0 < n.1 ∧ 0 < n.2) :
    fls t alpha (fan H D rb x' β 1) (fan H D rb y' β (-1)) nodes true true < fls t alpha (fan H D rb x β 1) (fan H D rb y β 1) nodes true true := by
  have hd' : rb ^ 2 ≤ (x' - y') ^ 2 := by rw [hxy]; exact hd
  have hap : ∀ {x y : ℝ}, rb ^ 2 ≤ (x - y) ^ 2 → ∀ τ, τ = 1 ∨ τ = -1 → Apart (fan H D rb x β 1) (fan H D rb y β τ) nodes := by
    intro x y hd τ hτ
    have : 0 < rb ^ 2 := by positivity
    have h0 : 0 < (x - y) ^ 2 := by linarith
    refine ⟨hH, fun n _ v _ => ?_, fun n _ v _ => ?_⟩
    · rw [(fan_dist2 (.inl rfl) hτ _ _).1, fan_gap hd]; positivity
    · rw [(fan_dist2 (.inl rfl) hτ _ _).2]; positivity
  refine farther_smaller t alpha (hap hd 1 (.inl rfl)) (hap hd' (-1) (.inr rfl)) hne (fun n hm => (hn n hm).2) hH rfl rfl (δ := fun u v => 4 * sin β ^ 2 * (u * H) * v) ?_ ?_ ?_ ?_
  · intro n hm v hv
    have := (hn n hm).1
    have := hv.1
    positivity
  · intro u v
    rw [(fan_dist2 (.inl rfl) (.inr rfl) _ _).1, (fan_dist2 (.inl rfl) (.inl rfl) _ _).1, fan_gap hd, fan_gap hd', hxy]; ring
  · intro u v
    rw [(fan_dist2 (.inl rfl) (.inr rfl) _ _).2, (fan_dist2 (.inl rfl) (.inl rfl) _ _).2, fan_gap hd, fan_gap hd', hxy]; ring
  · intro n hm v hv
    rw [(fan_dist2 (.inl rfl) (.inl rfl) _ _).1, (fan_dist2 (.inl rfl) (.inl rfl) _ _).2]
    have h1 := mul_nonneg hc (mul_nonneg (hn n hm).1.le hH.le)
    have h2 := mul_nonneg hc hv.1.le
    have e : (2 * D + cos β * (n.1 * H + v)) ^ 2 - (cos β * (n.1 * H - v)) ^ 2 = 4 * (D + cos β * (n.1 * H)) * (D + cos β * v) := by ring
    have : 0 < 4 * (D + cos β * (n.1 * H)) * (D + cos β * v) := by positivity
    linarith

end Verif.FLS.Incl
