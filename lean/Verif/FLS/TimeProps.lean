import Verif.FLS.Props

/-!
# Properties C72, C73: sign, growth in time, steady state and subdivision of the finite line source solution
-/

noncomputable section

namespace Verif.FLS

open Real MeasureTheory

/-! ### Positive integrands -/

theorem double_pos {F : ℝ → ℝ → ℝ} (hF : Continuous (Function.uncurry F)) {c e a b : ℝ} (hce : c < e) (hab : a < b)
    (hpos : ∀ z w, c < z → z < e → a < w → w < b → 0 < F z w) : 0 < ∫ z in c..e, ∫ w in a..b, F z w := by
  refine intervalIntegral.intervalIntegral_pos_of_pos_on
    (Continuous.intervalIntegrable (intervalIntegral.continuous_parametric_intervalIntegral_of_continuous' hF a b) _ _) (fun z hz => ?_) hce
  exact intervalIntegral.intervalIntegral_pos_of_pos_on (Continuous.intervalIntegrable (hF.comp (by fun_prop : Continuous fun w : ℝ => (z, w))) _ _)
    (fun w hw => hpos z w hz.1 hz.2 hw.1 hw.2) hab

section
variable {g : Pair} (hg : g.Ok) (h1 : 0 < g.H1)
include hg h1

theorem rea_pos {s : ℝ} (hs : 0 < s) : 0 < integrand g true false s := by
  rw [integrand_rea hg hs.ne']
  unfold Pair.mu
  rw [rect_eq (by fun_prop) (by linarith [hg.H2]) (by linarith)]
  refine mul_pos (by have := sqrt_pi_pos; positivity) (double_pos (F := fun z w => exp (-(g.dis ^ 2 + (z - w) ^ 2) * s ^ 2)) ?_ (by linarith [hg.H2]) (by linarith)
    fun z w _ _ _ _ => exp_pos _)
  unfold Function.uncurry
  fun_prop

theorem img_neg {s : ℝ} (hs : 0 < s) : integrand g false true s < 0 := by
  rw [integrand_img hg hs.ne', neg_lt_zero]
  unfold Pair.mu
  rw [rect_eq (by fun_prop) (by linarith [hg.H2]) (by linarith)]
  refine mul_pos (by have := sqrt_pi_pos; positivity) (double_pos (F := fun z w => exp (-(g.dis ^ 2 + (z + w) ^ 2) * s ^ 2)) ?_ (by linarith [hg.H2]) (by linarith)
    fun z w _ _ _ _ => exp_pos _)
  unfold Function.uncurry
  fun_prop

theorem all_pos (hD1 : 0 ≤ g.D1) (hD2 : 0 ≤ g.D2) {s : ℝ} (hs : 0 < s) : 0 < integrand g true true s := by
  have hint : ∀ F : ℝ × ℝ → ℝ, Continuous F → Integrable F g.mu := fun F hF => by
    unfold Pair.mu rect
    rw [Measure.prod_restrict]
    have : IntegrableOn F (Set.Icc g.D2 (g.D2 + g.H2) ×ˢ Set.Icc g.D1 (g.D1 + g.H1)) (volume.prod volume) :=
      hF.continuousOn.integrableOn_compact (isCompact_Icc.prod isCompact_Icc)
    exact this.mono_set (Set.prod_mono Set.Ioc_subset_Icc_self Set.Ioc_subset_Icc_self)
  rw [integrand_all, integrand_rea hg hs.ne', integrand_img hg hs.ne', ← sub_eq_add_neg, ← mul_sub,
    ← integral_sub (hint _ (by fun_prop)) (hint _ (by fun_prop))]
  unfold Pair.mu
  rw [rect_eq (by fun_prop) (by linarith [hg.H2]) (by linarith)]
  refine mul_pos (by have := sqrt_pi_pos; positivity)
    (double_pos (F := fun z w => exp (-(g.dis ^ 2 + (z - w) ^ 2) * s ^ 2) - exp (-(g.dis ^ 2 + (z + w) ^ 2) * s ^ 2)) ?_ (by linarith [hg.H2]) (by linarith)
    fun z w hz _ hw _ => ?_)
  · unfold Function.uncurry
    fun_prop
  · rw [sub_pos, exp_lt_exp]
    have hz' : 0 < z := by linarith
    have hw' : 0 < w := by linarith
    have : 0 < z * w * s ^ 2 := by positivity
    nlinarith

end

theorem tail_pos {f : ℝ → ℝ} (hf : ∀ a, 0 ≤ a → IntegrableOn f (Set.Ioi a)) (hp : ∀ s, 0 < s → 0 < f s) {a : ℝ} (ha : 0 ≤ a) : 0 < quad f a none := by
  show 0 < ∫ s in Set.Ioi a, f s
  rw [setIntegral_pos_iff_support_of_nonneg_ae _ (hf a ha)]
  · have : Set.Ioi a ⊆ Function.support f ∩ Set.Ioi a := fun s hs => ⟨(hp s (ha.trans_lt hs)).ne', hs⟩
    refine lt_of_lt_of_le ?_ (measure_mono this)
    simp
  · filter_upwards [ae_restrict_mem measurableSet_Ioi] with s hs
    exact (hp s (ha.trans_lt hs)).le

theorem tail_lt {f : ℝ → ℝ} (hf : ∀ a, 0 ≤ a → IntegrableOn f (Set.Ioi a)) (hp : ∀ s, 0 < s → 0 < f s) {a b : ℝ} (ha : 0 ≤ a) (hab : a < b) :
    quad f b none < quad f a none := by
  rw [← quad_tail hf ha (ha.trans hab.le)]
  have : 0 < quad f a (some b) := by
    refine intervalIntegral.intervalIntegral_pos_of_pos_on ?_ (fun s hs => hp s (ha.trans_lt hs.1)) hab
    exact (intervalIntegrable_iff_integrableOn_Ioc_of_le hab.le).mpr ((hf a ha).mono_set Set.Ioc_subset_Ioi_self)
  linarith

theorem lower_pos {alpha t : ℝ} (ha : 0 < alpha) (ht : 0 < t) : 0 < lower alpha t := by
  unfold lower; have : 0 < √(4 * alpha * t) := sqrt_pos.mpr (by positivity)
  positivity

theorem lower_lt {alpha t t' : ℝ} (ha : 0 < alpha) (ht : 0 < t) (h : t < t') : lower alpha t' < lower alpha t := by
  unfold lower
  have h1 : 0 < √(4 * alpha * t) := sqrt_pos.mpr (by positivity)
  refine one_div_lt_one_div_of_lt h1 (sqrt_lt_sqrt (by positivity) ?_)
  nlinarith

/-- **C72** (sign and growth).  The response with the real source is positive and increases with time; so does the response with both sources for
boreholes below ground; the image source lowers it. -/
theorem positive_increasing {alpha : ℝ} (ha : 0 < alpha) {g : Pair} (hg : g.Ok) (h1 : 0 < g.H1) {t t' : ℝ} (ht : 0 < t) (htt : t < t') :
    0 < fls t alpha g true false ∧ fls t alpha g true false < fls t' alpha g true false ∧
    fls t alpha g true true < fls t alpha g true false ∧
    (0 ≤ g.D1 → 0 ≤ g.D2 → 0 < fls t alpha g true true ∧ fls t alpha g true true < fls t' alpha g true true) := by
  have hc : 0 < 0.5 / g.H2 := by have := hg.H2; positivity
  have hl := lower_lt ha ht htt
  have hl0 := lower_nonneg alpha t
  have hl0' := lower_nonneg alpha t'
  have hr := fun (a : ℝ) (h : 0 ≤ a) => integrand_integrableOn hg true false h
  have hall := fun (a : ℝ) (h : 0 ≤ a) => integrand_integrableOn hg true true h
  refine ⟨mul_pos hc (tail_pos hr (fun s hs => rea_pos hg h1 hs) hl0), mul_lt_mul_of_pos_left (tail_lt hr (fun s hs => rea_pos hg h1 hs) hl0' hl) hc, ?_, ?_⟩
  · rw [(real_plus_image t alpha hg).1]
    have : 0 < quad (fun s => -integrand g false true s) (lower alpha t) none :=
      tail_pos (fun a h => (integrand_integrableOn hg false true h).neg) (fun s hs => neg_pos.mpr (img_neg hg h1 hs)) hl0
    have e : quad (fun s => -integrand g false true s) (lower alpha t) none = -quad (integrand g false true) (lower alpha t) none := by
      unfold quad; exact integral_neg _
    rw [e] at this
    have h3 : fls t alpha g false true < 0 := by
      unfold fls
      nlinarith
    linarith
  · intro hD1 hD2
    exact ⟨mul_pos hc (tail_pos hall (fun s hs => all_pos hg h1 hD1 hD2 hs) hl0),
      mul_lt_mul_of_pos_left (tail_lt hall (fun s hs => all_pos hg h1 hD1 hD2 hs) hl0' hl) hc⟩

example : 0 < fls 3600 (1 / 10 ^ 6) samplePair true true ∧ fls 3600 (1 / 10 ^ 6) samplePair true true < fls 7200 (1 / 10 ^ 6) samplePair true true :=
  (positive_increasing (by norm_num) samplePair_ok (by norm_num [samplePair]) (by norm_num) (by norm_num)).2.2.2 (by norm_num [samplePair]) (by norm_num [samplePair])

/-! ### Steady state -/

theorem sqrt_gt {d : ℝ} (hd : 0 < d) (x : ℝ) : 0 < x + √(x ^ 2 + d ^ 2) := by
  have : |x| < √(x ^ 2 + d ^ 2) := by
    rw [← sqrt_sq_eq_abs]
    exact sqrt_lt_sqrt (sq_nonneg _) (by have := pow_pos hd 2; linarith)
  linarith [neg_abs_le x]

theorem hasDerivAt_root {d : ℝ} (hd : 0 < d) (x : ℝ) : HasDerivAt (fun x => √(x ^ 2 + d ^ 2)) (x / √(x ^ 2 + d ^ 2)) x := by
  have h := (((hasDerivAt_pow 2 x).add_const (d ^ 2))).sqrt (by positivity)
  refine h.congr_deriv ?_
  have : √(x ^ 2 + d ^ 2) ≠ 0 := (sqrt_pos.mpr (by positivity)).ne'
  field_simp
  norm_num

theorem steady_G' {d : ℝ} (hd : 0 < d) (x : ℝ) : HasDerivAt (fun x => log (x + √(x ^ 2 + d ^ 2))) (1 / √(d ^ 2 + x ^ 2)) x := by
  have h := ((hasDerivAt_id x).add (hasDerivAt_root hd x)).log (sqrt_gt hd x).ne'
  refine h.congr_deriv ?_
  have h1 : √(x ^ 2 + d ^ 2) ≠ 0 := (sqrt_pos.mpr (by positivity)).ne'
  have h2 := (sqrt_gt hd x).ne'
  rw [show d ^ 2 + x ^ 2 = x ^ 2 + d ^ 2 by ring]
  simp only [Pi.add_apply, id]
  field_simp
  ring

theorem steady_G {d : ℝ} (hd : 0 < d) (x : ℝ) : HasDerivAt (steadyTerm d) (log (x + √(x ^ 2 + d ^ 2))) x := by
  unfold steadyTerm
  have h := ((hasDerivAt_id x).mul (steady_G' hd x)).sub (hasDerivAt_root hd x)
  refine h.congr_deriv ?_
  rw [show d ^ 2 + x ^ 2 = x ^ 2 + d ^ 2 by ring]
  simp only [id]
  ring

theorem inv_root_continuous {d : ℝ} (hd : 0 < d) : Continuous fun x : ℝ => 1 / √(d ^ 2 + x ^ 2) :=
  continuous_const.div (by fun_prop) fun x => (sqrt_pos.mpr (by positivity)).ne'

/-- The closed form is the integral over all `s`. -/
theorem steady_eq {g : Pair} (hg : g.Ok) (rea img : Bool) : steady g rea img = 0.5 / g.H2 * quad (integrand g rea img) 0 none := by
  have hr : inner4 (g.qRea.map (steadyTerm g.dis)) = ∫ s in Set.Ioi 0, integrand g true false s := by
    rw [int_rea hg le_rfl]
    simp only [zero_mul, erf_zero, sub_zero]
    rw [double_sub (k := fun x => 1 / √(g.dis ^ 2 + x ^ 2)) (steady_G hg.dis) (steady_G' hg.dis) (inv_root_continuous hg.dis)]
    simp [inner4, Pair.qRea]
    rw [show g.D2 + g.H2 - g.D1 = g.D2 - g.D1 + g.H2 by ring, show g.D2 - (g.D1 + g.H1) = g.D2 - g.D1 - g.H1 by ring,
      show g.D2 + g.H2 - (g.D1 + g.H1) = g.D2 - g.D1 + g.H2 - g.H1 by ring]
    ring
  have hi : inner4 (g.qImg.map (steadyTerm g.dis)) = ∫ s in Set.Ioi 0, integrand g false true s := by
    rw [int_img hg le_rfl]
    simp only [zero_mul, erf_zero, sub_zero]
    rw [double_add (k := fun x => 1 / √(g.dis ^ 2 + x ^ 2)) (steady_G hg.dis) (steady_G' hg.dis) (inv_root_continuous hg.dis)]
    simp [inner4, Pair.qImg]
    rw [show g.D2 + g.H2 + g.D1 = g.D2 + g.D1 + g.H2 by ring, show g.D2 + (g.D1 + g.H1) = g.D2 + g.D1 + g.H1 by ring,
      show g.D2 + g.H2 + (g.D1 + g.H1) = g.D2 + g.D1 + g.H2 + g.H1 by ring]
    ring
  have h8 : inner8 (g.qAll.map (steadyTerm g.dis)) = inner4 (g.qRea.map (steadyTerm g.dis)) + inner4 (g.qImg.map (steadyTerm g.dis)) := by
    simp [inner8, inner4, Pair.qAll, Pair.qRea, Pair.qImg]
    ring
  unfold steady quad
  cases rea <;> cases img <;> simp only [Bool.and_true, Bool.and_false, Bool.false_eq_true, if_true, if_false, Bool.and_self]
  · simp [integrand_none]
  · rw [hi]
  · rw [hr]
  · rw [h8, hr, hi, int_all hg le_rfl]

/-- **C72** (steady state).  The response tends to the closed form that is returned for infinite time. -/
theorem tends_to_steady {alpha : ℝ} (ha : 0 < alpha) {g : Pair} (hg : g.Ok) (rea img : Bool) :
    Filter.Tendsto (fun t => fls t alpha g rea img) Filter.atTop (nhds (steady g rea img)) := by
  rw [steady_eq hg]
  have hlow : Filter.Tendsto (lower alpha) Filter.atTop (nhds 0) := by
    unfold lower
    have h1 : Filter.Tendsto (fun t : ℝ => √(4 * alpha * t)) Filter.atTop Filter.atTop :=
      tendsto_sqrt_atTop.comp (Filter.Tendsto.const_mul_atTop (by positivity) Filter.tendsto_id)
    simp only [one_div]
    exact h1.inv_tendsto_atTop
  have hi := integrand_integrableOn hg rea img le_rfl
  have hcont : Filter.Tendsto (fun a => ∫ s in (0 : ℝ)..a, (Set.indicator (Set.Ioi 0) (integrand g rea img)) s) (nhds 0) (nhds 0) := by
    have hint : Integrable (Set.indicator (Set.Ioi 0) (integrand g rea img)) := hi.integrable_indicator measurableSet_Ioi
    have := (intervalIntegral.continuous_primitive (fun a b => hint.intervalIntegrable) 0).tendsto 0
    simpa using this
  have hq : ∀ t, quad (integrand g rea img) (lower alpha t) none = quad (integrand g rea img) 0 none
      - ∫ s in (0 : ℝ)..lower alpha t, (Set.indicator (Set.Ioi 0) (integrand g rea img)) s := fun t => by
    rw [← quad_tail (fun a h => integrand_integrableOn hg rea img h) le_rfl (lower_nonneg alpha t)]
    have : ∫ s in (0 : ℝ)..lower alpha t, (Set.indicator (Set.Ioi 0) (integrand g rea img)) s = quad (integrand g rea img) 0 (some (lower alpha t)) := by
      show _ = ∫ s in (0 : ℝ)..lower alpha t, integrand g rea img s
      rw [intervalIntegral.integral_of_le (lower_nonneg _ _), intervalIntegral.integral_of_le (lower_nonneg _ _)]
      refine setIntegral_congr_fun measurableSet_Ioc fun s hs => ?_
      exact Set.indicator_of_mem hs.1 _
    rw [this]; ring
  unfold fls
  simp only [hq]
  have := (tendsto_const_nhds (x := quad (integrand g rea img) 0 none)).sub (hcont.comp hlow)
  rw [sub_zero] at this
  exact this.const_mul _

/-- The steady state bounds the response at all times. -/
theorem lt_steady {alpha : ℝ} (ha : 0 < alpha) {g : Pair} (hg : g.Ok) (h1 : 0 < g.H1) (hD1 : 0 ≤ g.D1) (hD2 : 0 ≤ g.D2) {t : ℝ} (ht : 0 < t) :
    fls t alpha g true true < steady g true true := by
  rw [steady_eq hg]
  exact mul_lt_mul_of_pos_left (tail_lt (fun a h => integrand_integrableOn hg true true h) (fun s hs => all_pos hg h1 hD1 hD2 hs) le_rfl (lower_pos ha ht))
    (by have := hg.H2; positivity)

/-! ### Subdivision -/

/-- Consecutive pieces of the given lengths, from depth `D`: depth and length of each. -/
def pieces : ℝ → List ℝ → List (ℝ × ℝ)
  | _, [] => []
  | D, l :: ls => (D, l) :: pieces (D + l) ls

def Pair.withSource (g : Pair) (p : ℝ × ℝ) : Pair := ⟨g.dis, p.2, p.1, g.H2, g.D2⟩
def Pair.withReceiver (g : Pair) (p : ℝ × ℝ) : Pair := ⟨g.dis, g.H1, g.D1, p.2, p.1⟩

theorem integrand_source (g : Pair) (D a b : ℝ) (rea img : Bool) (s : ℝ) :
    integrand (g.withSource (D, a + b)) rea img s = integrand (g.withSource (D, a)) rea img s + integrand (g.withSource (D + a, b)) rea img s := by
  have e1 : g.D2 - D - (a + b) = g.D2 - (D + a) - b := by ring
  have e2 : g.D2 - D + g.H2 - (a + b) = g.D2 - (D + a) + g.H2 - b := by ring
  have e3 : g.D2 - D - a = g.D2 - (D + a) := by ring
  have e4 : g.D2 - D + g.H2 - a = g.D2 - (D + a) + g.H2 := by ring
  have e5 : g.D2 + D + (a + b) = g.D2 + (D + a) + b := by ring
  have e6 : g.D2 + D + g.H2 + (a + b) = g.D2 + (D + a) + g.H2 + b := by ring
  have e7 : g.D2 + D + a = g.D2 + (D + a) := by ring
  have e8 : g.D2 + D + g.H2 + a = g.D2 + (D + a) + g.H2 := by ring
  cases rea <;> cases img <;>
    simp only [integrand, Pair.withSource, Pair.qRea, Pair.qImg, Pair.qAll, inner4, inner8, List.map_cons, List.map_nil, List.zipWith_cons_cons,
      List.zipWith_nil_right, List.sum_cons, List.sum_nil, Bool.and_true, Bool.and_false, Bool.false_eq_true, if_true, if_false, Bool.and_self,
      e1, e2, e3, e4, e5, e6, e7, e8] <;> ring

theorem integrand_receiver (g : Pair) (D a b : ℝ) (rea img : Bool) (s : ℝ) :
    integrand (g.withReceiver (D, a + b)) rea img s = integrand (g.withReceiver (D, a)) rea img s + integrand (g.withReceiver (D + a, b)) rea img s := by
  have e1 : D - g.D1 + (a + b) = D + a - g.D1 + b := by ring
  have e3 : D - g.D1 + a = D + a - g.D1 := by ring
  have e5 : D + g.D1 + (a + b) = D + a + g.D1 + b := by ring
  have e7 : D + g.D1 + a = D + a + g.D1 := by ring
  cases rea <;> cases img <;>
    simp only [integrand, Pair.withReceiver, Pair.qRea, Pair.qImg, Pair.qAll, inner4, inner8, List.map_cons, List.map_nil, List.zipWith_cons_cons,
      List.zipWith_nil_right, List.sum_cons, List.sum_nil, Bool.and_true, Bool.and_false, Bool.false_eq_true, if_true, if_false, Bool.and_self,
      e1, e3, e5, e7] <;> ring

theorem integrand_source_zero (g : Pair) (D : ℝ) (rea img : Bool) (s : ℝ) : integrand (g.withSource (D, 0)) rea img s = 0 := by
  have := integrand_source g D 0 0 rea img s
  simpa using this

theorem integrand_receiver_zero (g : Pair) (D : ℝ) (rea img : Bool) (s : ℝ) : integrand (g.withReceiver (D, 0)) rea img s = 0 := by
  have := integrand_receiver g D 0 0 rea img s
  simpa using this

/-- **C73** (sources).  The response to a borehole is the sum of the responses to its segments. -/
theorem source_segments (t alpha : ℝ) {g : Pair} (hg : g.Ok) (rea img : Bool) (ls : List ℝ) (hls : ∀ l ∈ ls, 0 ≤ l) (hsum : ls.sum = g.H1) :
    fls t alpha g rea img = ((pieces g.D1 ls).map fun p => fls t alpha (g.withSource p) rea img).sum := by
  have key : ∀ (ls : List ℝ) (D : ℝ), (∀ l ∈ ls, 0 ≤ l) →
      fls t alpha (g.withSource (D, ls.sum)) rea img = ((pieces D ls).map fun p => fls t alpha (g.withSource p) rea img).sum := by
    intro ls
    induction ls with
    | nil => intro D _; simp [pieces, fls, quad, integrand_source_zero]
    | cons l ls ih =>
      intro D h
      have hl := h l List.mem_cons_self
      have hrest : 0 ≤ ls.sum := List.sum_nonneg fun x hx => h x (List.mem_cons_of_mem _ hx)
      simp only [pieces, List.map_cons, List.sum_cons]
      rw [← ih (D + l) fun x hx => h x (List.mem_cons_of_mem _ hx)]
      have ok1 : (g.withSource (D, l)).Ok := ⟨hg.dis, hl, hg.H2⟩
      have ok2 : (g.withSource (D + l, ls.sum)).Ok := ⟨hg.dis, hrest, hg.H2⟩
      unfold fls quad
      simp only [integrand_source]
      rw [integral_add (integrand_integrableOn ok1 rea img (lower_nonneg _ _)) (integrand_integrableOn ok2 rea img (lower_nonneg _ _))]
      show 0.5 / g.H2 * _ = 0.5 / g.H2 * _ + 0.5 / g.H2 * _
      ring
  rw [← key ls g.D1 hls, hsum]
  rfl

/-- **C73** (receivers).  The response of a borehole is the mean of the responses of its segments, weighted by length. -/
theorem receiver_segments (t alpha : ℝ) {g : Pair} (hg : g.Ok) (rea img : Bool) (ls : List ℝ) (hls : ∀ l ∈ ls, 0 < l) (hsum : ls.sum = g.H2) :
    fls t alpha g rea img = ((pieces g.D2 ls).map fun p => p.2 * fls t alpha (g.withReceiver p) rea img).sum / g.H2 := by
  have key : ∀ (ls : List ℝ) (D : ℝ), (∀ l ∈ ls, 0 < l) → 0.5 * quad (integrand (g.withReceiver (D, ls.sum)) rea img) (lower alpha t) none
      = ((pieces D ls).map fun p => p.2 * fls t alpha (g.withReceiver p) rea img).sum := by
    intro ls
    induction ls with
    | nil => intro D _; simp [pieces, quad, integrand_receiver_zero]
    | cons l ls ih =>
      intro D h
      have hl := h l List.mem_cons_self
      have hne : l ≠ 0 := hl.ne'
      have e : l * fls t alpha (g.withReceiver (D, l)) rea img = 0.5 * quad (integrand (g.withReceiver (D, l)) rea img) (lower alpha t) none := by
        unfold fls
        show l * (0.5 / l * _) = _
        field_simp
      simp only [pieces, List.map_cons, List.sum_cons]
      rw [← ih (D + l) fun x hx => h x (List.mem_cons_of_mem _ hx), e]
      rcases ls with _ | ⟨l', ls⟩
      · simp [quad, integrand_receiver_zero]
      · have hrest : 0 < (l' :: ls).sum := List.sum_pos _ (fun x hx => h x (List.mem_cons_of_mem _ hx)) (by simp)
        have ok1 : (g.withReceiver (D, l)).Ok := ⟨hg.dis, hg.H1, hl⟩
        have ok2 : (g.withReceiver (D + l, (l' :: ls).sum)).Ok := ⟨hg.dis, hg.H1, hrest⟩
        unfold quad
        simp only [integrand_receiver]
        rw [integral_add (integrand_integrableOn ok1 rea img (lower_nonneg _ _)) (integrand_integrableOn ok2 rea img (lower_nonneg _ _))]
        ring
  rw [← key ls g.D2 hls, hsum]
  have := hg.H2
  unfold fls
  show 0.5 / g.H2 * quad (integrand g rea img) _ _ = 0.5 * quad (integrand g rea img) _ _ / g.H2
  ring

/-- Two segments with unequal lengths. -/
example : fls 3600 (1 / 10 ^ 6) samplePair true true =
    fls 3600 (1 / 10 ^ 6) (samplePair.withSource (4, 30)) true true + fls 3600 (1 / 10 ^ 6) (samplePair.withSource (34, 70)) true true := by
  have := source_segments 3600 (1 / 10 ^ 6) samplePair_ok true true [30, 70] (by norm_num) (by norm_num [samplePair])
  rw [this]
  simp [pieces, samplePair]
  norm_num

end Verif.FLS
