import Verif.FLS.SlowLemmas
import Verif.FLS.SlowCurve
import Verif.Bore.DistanceProps
import Verif.LoadAgg.AccuracyProps

/-!
# Property C130: the response of a borehole levels off, so that load aggregation is accurate for it

The self-response of a vertical borehole (finite line source with mirror source, at the borehole
wall) rises, its increments over equal times decrease and the decrease of the increments decreases
too, provided that the time step is not much shorter than the diffusion time `r_b^2 / alpha`.  This
is the hypothesis of C129.
-/

noncomputable section

namespace Verif.FLS

open Real MeasureTheory Set Filter Topology

/-! ### The curve of the finite line source -/

theorem wave_anti {alpha D B : ℝ} (ha : 0 < alpha) {t t' : ℝ} (ht : 0 < t) (htt : t ≤ t') :
    ∫ k : ℝ, wave D B k * exp (-(alpha * t') * k ^ 2) ≤ ∫ k : ℝ, wave D B k * exp (-(alpha * t) * k ^ 2) := by
  refine integral_mono (wave_integrable D B (mul_pos ha (ht.trans_le htt))) (wave_integrable D B (mul_pos ha ht)) fun k => ?_
  refine mul_le_mul_of_nonneg_left (exp_le_exp.mpr ?_) (wave_nonneg D B k)
  have := mul_le_mul_of_nonneg_right (mul_le_mul_of_nonneg_left htt ha.le) (sq_nonneg k)
  linarith

theorem vertAt_anti {alpha D H : ℝ} (ha : 0 < alpha) : AntitoneOn (vertAt alpha D H) (Ioi 0) := by
  refine antitoneOn_of_deriv_nonpos (convex_Ioi 0) (fun x hx => (vertAt_hasDerivAt ha hx).continuousAt.continuousWithinAt) (fun x hx => ?_) fun x hx => ?_
  · exact (vertAt_hasDerivAt ha (interior_subset hx)).differentiableAt.differentiableWithinAt
  · rw [(vertAt_hasDerivAt ha (interior_subset hx)).deriv]
    have : 0 ≤ ∫ k : ℝ, wave D (D + H) k * exp (-(alpha * x) * k ^ 2) := integral_nonneg fun k => mul_nonneg (wave_nonneg _ _ _) (exp_pos _).le
    have hp := pi_pos
    have : 0 ≤ alpha / π * ∫ k : ℝ, wave D (D + H) k * exp (-(alpha * x) * k ^ 2) := by positivity
    linarith

theorem vertAt_convex {alpha D H : ℝ} (ha : 0 < alpha) : ConvexOn ℝ (Ioi 0) (vertAt alpha D H) := by
  refine MonotoneOn.convexOn_of_deriv (convex_Ioi 0) (fun x hx => (vertAt_hasDerivAt ha hx).continuousAt.continuousWithinAt) (fun x hx => ?_) ?_
  · exact (vertAt_hasDerivAt ha (interior_subset hx)).differentiableAt.differentiableWithinAt
  · intro x hx y hy hxy
    rw [(vertAt_hasDerivAt ha (interior_subset hx)).deriv, (vertAt_hasDerivAt ha (interior_subset hy)).deriv]
    have hp := pi_pos
    have := mul_le_mul_of_nonneg_left (wave_anti (D := D) (B := D + H) ha (interior_subset hx) hxy) (show 0 ≤ alpha / π by positivity)
    linarith

theorem fls_hasDerivAt {alpha d D H : ℝ} (ha : 0 < alpha) (hd : 0 < d) (hH : 0 < H) {t : ℝ} (ht : 0 < t) :
    HasDerivAt (fun t => fls t alpha ⟨d, H, D, H, D⟩ true true) (1 / (4 * H) * (ils (d ^ 2 / (4 * alpha)) t * vertAt alpha D H t)) t := by
  obtain ⟨g, hg⟩ : ∃ g : Pair, g = ⟨d, H, D, H, D⟩ := ⟨_, rfl⟩
  have ok : g.Ok := by rw [hg]; exact ⟨hd, hH.le, hH⟩
  have hv : Continuous g.vert := by
    rw [hg]; exact vertOf_continuous (ι := Unit) (fun _ => D) (fun _ => H) () ()
  have hc : ContinuousOn (integrand g true true) (Ioi 0) := by
    have : ContinuousOn (fun s => exp (-g.dis ^ 2 * s ^ 2) * g.vert s / s) (Ioi 0) :=
      ContinuousOn.div (by fun_prop) continuousOn_id fun u hu => ne_of_gt hu
    exact this.congr fun s hs => integrand_vert g (ne_of_gt hs)
  have hi := fun (a : ℝ) (h : 0 ≤ a) => integrand_integrableOn ok true true h
  have tail : ∀ x : ℝ, 0 < x → HasDerivAt (fun x => quad (integrand g true true) x none) (-integrand g true true x) x := by
    intro x hx
    have h := intervalIntegral.integral_hasDerivAt_right (f := integrand g true true) (a := x / 2) (b := x)
      ((hc.mono (fun u hu => by rw [uIcc_of_le (by linarith)] at hu; exact lt_of_lt_of_le (by linarith) hu.1)).intervalIntegrable)
      (hc.stronglyMeasurableAtFilter isOpen_Ioi x hx) (hc.continuousAt (Ioi_mem_nhds hx))
    refine (h.const_sub (quad (integrand g true true) (x / 2) none)).congr_of_eventuallyEq ?_
    filter_upwards [Ioi_mem_nhds (show x / 2 < x by linarith)] with z hz
    have hz' : x / 2 < z := hz
    have := quad_tail hi (a := x / 2) (b := z) (by linarith) (by linarith)
    have e : quad (integrand g true true) (x / 2) (some z) = ∫ s in (x / 2)..z, integrand g true true s := rfl
    rw [e] at this
    linarith
  have hl := lower_pos ha ht
  have h := (HasDerivAt.comp t (tail (lower alpha t) hl) (lower_hasDerivAt ha ht)).const_mul (0.5 / g.H2)
  rw [← hg]
  refine h.congr_deriv ?_
  rw [integrand_vert g hl.ne']
  have e1 : g.vert (lower alpha t) = vertAt alpha D H t := by rw [hg]; rfl
  have e2 : -g.dis ^ 2 * lower alpha t ^ 2 = -(d ^ 2 / (4 * alpha) / t) := by
    rw [lower_sq ha ht, hg]
    field_simp
  have e3 : g.H2 = H := by rw [hg]
  rw [e1, e2, e3]
  unfold ils
  field_simp
  ring

theorem fls_curve {alpha d D H : ℝ} (ha : 0 < alpha) (hd : 0 < d) (hH : 0 < H) (hD : 0 ≤ D) {c : ℝ} (hc : 0 ≤ c) :
    Curve (d ^ 2 / (4 * alpha)) (c * (1 / (4 * H))) (vertAt alpha D H) fun t => c * fls t alpha ⟨d, H, D, H, D⟩ true true where
  A_pos := by positivity
  κ_nonneg := by positivity
  convex := vertAt_convex ha
  anti := vertAt_anti ha
  nonneg t ht := by
    have hl := lower_pos ha ht
    have h := all_pos (g := ⟨d, H, D, H, D⟩) ⟨hd, hH.le, hH⟩ hH hD hD hl
    rw [integrand_vert _ hl.ne'] at h
    have h' := (div_pos_iff_of_pos_right hl).mp h
    exact (pos_of_mul_pos_right h' (exp_pos _).le).le
  deriv t ht := by
    rw [mul_assoc]
    exact (fls_hasDerivAt ha hd hH ht).const_mul c
  R_nonneg t ht := mul_nonneg hc ((positive_increasing ha (g := ⟨d, H, D, H, D⟩) ⟨hd, hH.le, hH⟩ hH ht (show t < t + 1 by linarith)).2.2.2 hD hD).1.le

theorem levelsOff_curve {A κ : ℝ} {φ R : ℝ → ℝ} (h : Curve A κ φ R) {dt : ℝ} (hd : 0 < dt) (hA : 5 * A ≤ 2 * dt) :
    LoadAgg.CJ.LevelsOff (LoadAgg.CJ.stepResponse R dt) := by
  have hA0 := h.A_pos
  have s : ∀ m : ℕ, LoadAgg.CJ.stepResponse R dt (m + 1) = R (dt + m * dt) := fun m => by
    rw [LoadAgg.CJ.stepResponse_succ]
    congr 1
    push_cast
    ring
  have z : LoadAgg.CJ.stepResponse R dt 0 = 0 := if_pos rfl
  have s1 : LoadAgg.CJ.stepResponse R dt 1 = R dt := by rw [s 0]; norm_num
  have s2 : LoadAgg.CJ.stepResponse R dt 2 = R (2 * dt) := by rw [s 1]; congr 1; push_cast; ring
  have s3 : LoadAgg.CJ.stepResponse R dt 3 = R (3 * dt) := by rw [s 2]; congr 1; push_cast; ring
  have pos : ∀ m : ℕ, dt ≤ dt + m * dt := fun m => by
    have : (0 : ℝ) ≤ m * dt := by positivity
    linarith
  have f := h.first hd hA
  have hs : ∀ m : ℕ, LoadAgg.CJ.stepResponse R dt (m + 1 + 2) - LoadAgg.CJ.stepResponse R dt (m + 1 + 1) ≤ LoadAgg.CJ.stepResponse R dt (m + 1 + 1) - LoadAgg.CJ.stepResponse R dt (m + 1) := fun m => by
    have := h.slower (t := dt + m * dt) (d := dt) (by linarith [pos m]) hd.le
    rw [s m, s (m + 1), s (m + 2)]
    push_cast
    rw [show dt + ((m : ℝ) + 1) * dt = dt + m * dt + dt by ring, show dt + ((m : ℝ) + 2) * dt = dt + m * dt + 2 * dt by ring]
    exact this
  refine ⟨z, fun i => ?_, fun i => ?_, fun i => ?_⟩
  · rcases i with _ | m
    · rw [z, s1]; exact h.R_nonneg dt hd
    · rw [s m, s (m + 1)]
      refine h.mono (by linarith [pos m]) ?_
      push_cast
      linarith
  · rcases i with _ | m
    · have := hs 0
      norm_num at this ⊢
      rw [s1, s2, s3] at this
      rw [s1, s2, z]
      linarith
    · exact hs m
  · rcases i with _ | m
    · norm_num
      rw [s1, s2, s3, z]
      linarith
    · have := h.slower2 (t := dt + m * dt) (d := dt) (by linarith [pos m]) hd
      rw [s m, s (m + 1), s (m + 2), s (m + 3)]
      push_cast
      rw [show dt + ((m : ℝ) + 1) * dt = dt + m * dt + dt by ring, show dt + ((m : ℝ) + 2) * dt = dt + m * dt + 2 * dt by ring, show dt + ((m : ℝ) + 3) * dt = dt + m * dt + 3 * dt by ring]
      exact this

/-! ### Properties -/

/-- Dimensions of a vertical borehole. -/
structure Upright (b : Bore.Borehole) : Prop where
  rb : 0 < b.rb
  H : 0 < b.H
  D : 0 ≤ b.D

theorem self_pair {b : Bore.Borehole} (hb : Upright b) : pairOf b b = ⟨b.rb, b.H, b.D, b.H, b.D⟩ := by
  unfold pairOf
  rw [Bore.distance_self b hb.rb.le]

/-- **C130** (increments).  From the time `r_b^2 / (4 alpha)` on, the response of a borehole rises by
less and less over equal time intervals. -/
theorem self_slower {alpha : ℝ} (ha : 0 < alpha) {b : Bore.Borehole} (hb : Upright b) {t d : ℝ} (ht : b.rb ^ 2 / (4 * alpha) ≤ t) (hd : 0 ≤ d) :
    fls (t + 2 * d) alpha (pairOf b b) true true - fls (t + d) alpha (pairOf b b) true true
      ≤ fls (t + d) alpha (pairOf b b) true true - fls t alpha (pairOf b b) true true := by
  rw [self_pair hb]
  have := (fls_curve ha hb.rb hb.H hb.D zero_le_one).slower ht hd
  simpa only [one_mul] using this

/-- **C130** (levels off).  With a time step of at least `5/8 r_b^2 / alpha` the values of the
response after 0, 1, 2, … steps rise, by less and less, and the decrease of the rise decreases. -/
theorem self_levels_off {alpha : ℝ} (ha : 0 < alpha) {b : Bore.Borehole} (hb : Upright b) {dt : ℝ} (hdt : 5 * b.rb ^ 2 ≤ 8 * alpha * dt) {c : ℝ} (hc : 0 ≤ c) :
    LoadAgg.CJ.LevelsOff (LoadAgg.CJ.stepResponse (fun t => c * fls t alpha (pairOf b b) true true) dt) := by
  have hr := hb.rb
  have hd : 0 < dt := by
    by_contra hn
    push Not at hn
    have : 8 * alpha * dt ≤ 0 := mul_nonpos_of_nonneg_of_nonpos (by positivity) hn
    have : 0 < 5 * b.rb ^ 2 := by positivity
    linarith
  rw [self_pair hb]
  refine levelsOff_curve (fls_curve ha hb.rb hb.H hb.D hc) hd ?_
  rw [← mul_div_assoc, div_le_iff₀ (by positivity)]
  linarith

open LoadAgg LoadAgg.CJ Util in
/-- **C130** (load aggregation).  A single borehole, ground conductivity `ks`, with the response
factors given to `ClaessonJaved.initialize` as `g / (2 pi ks)`: for any loads the temperature drop
returned by the scheme differs from the exact superposition by at most
`1 / (2 c + 1)` of the sum of the absolute changes of load times their responses. -/
theorem borehole_accuracy {n : ℕ} {alpha ks : ℝ} (ha : 0 < alpha) (hk : 0 < ks) {b : Bore.Borehole} (hb : Upright b)
    (dt tmax : ℝ) (hdt : 5 * b.rb ^ 2 ≤ 8 * alpha * dt) (c : ℕ) (hc : 1 ≤ c) (time : List ℝ) (ht : TimeClaessonJaved dt tmax c time) (hn : time.length = n + 1)
    (ops : List (Op ℝ Unit)) (hp : Proper ops) (T : ℕ) (hT : time[n]'(by omega) = T * dt)
    (h1 : (2 * c + 1) ^ 2 * (hist ops).length ^ 2 ≤ 6 * c * T ^ 2) (h2 : (2 * c + 1) * (hist ops).length ≤ 2 * c * T) :
    |temporalSuperposition (increments fun _ _ (k : Fin (n + 1)) => 1 / (2 * π * ks) * fls (time[k.val]'(by omega)) alpha (pairOf b b) true true)
          (run (widths dt fun k : Fin (n + 1) => time[k.val]'(by omega)) ops) ()
        - superpose (fun k => 1 / (2 * π * ks) * fls ((k + 1 : ℕ) * dt) alpha (pairOf b b) true true) ((hist ops).map fun l => l ())|
      ≤ 1 / (2 * c + 1) * ∑ k ∈ Finset.range (hist ops).length,
          |((hist ops).map fun l => l ()).getD k 0 - ((hist ops).map fun l => l ()).getD (k + 1) 0|
            * (1 / (2 * π * ks) * fls ((k + 1 : ℕ) * dt) alpha (pairOf b b) true true) := by
  have hd : 0 < dt := by
    by_contra hneg
    push Not at hneg
    have : 8 * alpha * dt ≤ 0 := mul_nonpos_of_nonneg_of_nonpos (by positivity) hneg
    have := hb.rb
    have : 0 < 5 * b.rb ^ 2 := by positivity
    linarith
  have hp0 := pi_pos
  have := cj_accuracy dt tmax hd c hc time ht hn (fun _ _ : Unit => fun t => 1 / (2 * π * ks) * fls t alpha (pairOf b b) true true)
    (fun _ _ => self_levels_off ha hb hdt (by positivity)) ops hp T hT h1 h2 ()
  simpa only [Fintype.sum_unique, PUnit.default_eq_unit, Finset.univ_unique, Finset.sum_singleton] using this

/-- A borehole of 150 m with a radius of 75 mm. -/
def demo : Bore.Borehole := ⟨150, 4, 0.075, 0, 0, 0, 0⟩

theorem demo_upright : Upright demo := ⟨by norm_num [demo], by norm_num [demo], by norm_num [demo]⟩

/-- Example: ground of `1e-6` m²/s, intervals of one hour from the first half hour on. -/
example := self_slower (alpha := 1 / 10 ^ 6) (by norm_num) demo_upright (t := 1800) (d := 3600) (by norm_num [demo]) (by norm_num)

/-- Example: time steps of one hour. -/
example := self_levels_off (alpha := 1 / 10 ^ 6) (by norm_num) demo_upright (dt := 3600) (by norm_num [demo]) zero_le_one

theorem demo_grid : Util.TimeClaessonJaved (3600 : ℝ) 18000 1 [3600, 10800, 25200] := by
  refine ⟨_, .step (by norm_num [Util.cjCond, Util.cjInit]) (.step (by norm_num [Util.cjCond, Util.cjBody, Util.cjInit])
    (.step (by norm_num [Util.cjCond, Util.cjBody, Util.cjInit]) (.done (by norm_num [Util.cjCond, Util.cjBody, Util.cjInit])))), ?_⟩
  norm_num [Util.cjBody, Util.cjInit]

/-- Three hours with the loads 20, 20 and 30 W/m. -/
def demoOps : List (LoadAgg.Op ℝ Unit) := [.next, .set fun _ => 20, .next, .set fun _ => 20, .next, .set fun _ => 30]

example := borehole_accuracy (n := 2) (alpha := 1 / 10 ^ 6) (ks := 2) (by norm_num) (by norm_num) demo_upright 3600 18000 (by norm_num [demo]) 1 le_rfl _ demo_grid rfl
  demoOps trivial 7 (by norm_num) (by simp [demoOps, LoadAgg.hist, LoadAgg.histStep]) (by simp [demoOps, LoadAgg.hist, LoadAgg.histStep])

end Verif.FLS
