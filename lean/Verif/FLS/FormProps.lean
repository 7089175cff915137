import Verif.FLS.FormModel
import Verif.FLS.PairProps

/-!
# C157: the forms in which a time can be given to `finite_line_source`
-/

noncomputable section

namespace Verif.FLS

open Real Bore Filter

theorem ofOption_value {x : Option Res} {r : Res} : Out.ofOption x = .value r ↔ x = some r := by
  cases x <;> simp [Out.ofOption]

/-- At infinity, without the approximation, the integral from 0 is the limit of the values. -/
theorem infIntegral_limit {o : FlsOpts} (ha : 0 < o.alpha) (ho : o.approximation = false) {b1 b2 : Borehole} (h : Usable o b1 b2) {f : ℝ → ℝ}
    (hf : ∀ t, finiteLineSource o (.at t) (.one b1) (.one b2) = some (.pair (.one (f t)))) : Tendsto f atTop (nhds (infIntegral o b1 b2)) := by
  unfold infIntegral
  by_cases hv : isVertical b1 = true ∧ isVertical b2 = true
  · have e : f = fun t => fls t o.alpha (pairOf b1 b2) o.rea o.img := by
      funext t
      have := hf t
      rw [pair_vertical hv.1 hv.2] at this
      simpa [flsVertical, ho] using this.symm
    rw [e, if_pos (by rw [hv.1, hv.2]; rfl)]
    have := tends_to_steady ha h.ok o.rea o.img
    rwa [steady_eq h.ok] at this
  · have e : f = fun t => Incl.fls t o.alpha b1 b2 o.nodes o.rea o.img := by
      funext t
      have := hf t
      rw [pair_inclined hv] at this
      simpa [flsInclined, ho] using this.symm
    rw [e, if_neg (by rwa [Bool.and_eq_true])]
    exact (Incl.tendsto_quad ha fun a h0 => Incl.integrand_integrableOn (h.off hv).apart h0 o.rea o.img).const_mul _

/-- The values without the approximation exist. -/
theorem at_value {o : FlsOpts} (ho : o.approximation = false) (b1 b2 : Borehole) :
    ∃ f : ℝ → ℝ, ∀ t, finiteLineSource o (.at t) (.one b1) (.one b2) = some (.pair (.one (f t))) := by
  by_cases hv : isVertical b1 = true ∧ isVertical b2 = true
  · exact ⟨fun t => fls t o.alpha (pairOf b1 b2) o.rea o.img, fun t => by rw [pair_vertical hv.1 hv.2]; simp [flsVertical, ho]⟩
  · exact ⟨fun t => Incl.fls t o.alpha b1 b2 o.nodes o.rea o.img, fun t => by rw [pair_inclined hv]; simp [flsInclined, ho]⟩

/-- **C157**: an array of times, or a list when `alpha` is a numpy number, gives one value per time, each that of the call with this time as a float; without the approximation it
never raises an exception unless it is empty. -/
theorem form_array {o : FlsOpts} {b1 b2 : Borehole} (h : Usable o b1 b2) (na : Bool) (ts : List ℝ) :
    flsForm o true (.list ts) b1 b2 = flsForm o na (.arr ts) b1 b2 ∧
    (∀ r, flsForm o na (.arr ts) b1 b2 = .value r → ∃ l : List ℝ, r = .pair (.many l) ∧ l.length = ts.length ∧
      ∀ (i : ℕ) (t : ℝ), ts[i]? = some t → ∃ x, l[i]? = some x ∧ flsForm o na (.float t) b1 b2 = .value (.pair (.one x))) ∧
    (o.approximation = false → ((∃ r, flsForm o na (.arr ts) b1 b2 = .value r) ↔ ts ≠ [])) ∧
    (o.approximation = true → ((∃ r, flsForm o na (.arr ts) b1 b2 = .value r) ↔ (erfCoeffs o.N).isSome)) := by
  refine ⟨rfl, fun r hr => ?_, fun ho => ?_, fun ho => ?_⟩
  · simp only [flsForm, formArray] at hr ⊢
    split at hr
    · exact absurd hr (by simp)
    · obtain ⟨l, e, hl, hx⟩ := pair_times h ts (ofOption_value.mp hr)
      refine ⟨l, e, hl, fun i t hi => ?_⟩
      obtain ⟨x, h1, h2⟩ := hx i t hi
      exact ⟨x, h1, ofOption_value.mpr h2⟩
  · simp only [flsForm, formArray, ho]
    cases ts with
    | nil => simp
    | cons t ts =>
      simp only [Bool.not_false, Bool.true_and, List.isEmpty_cons, Bool.false_eq_true, if_false, ofOption_value]
      refine iff_of_true ?_ (by simp)
      by_cases hv : isVertical b1 = true ∧ isVertical b2 = true
      · rw [pair_vertical hv.1 hv.2]; simp [flsVertical, ho]
      · rw [pair_inclined hv]; simp [flsInclined, ho]
  · simp only [flsForm, formArray, ho, Bool.not_true, Bool.false_and, Bool.false_eq_true, if_false, ofOption_value]
    by_cases hv : isVertical b1 = true ∧ isVertical b2 = true
    · rw [pair_vertical hv.1 hv.2]
      cases hc : erfCoeffs o.N <;> simp [flsVertical, ho, hc]
    · rw [pair_inclined hv]
      cases hc : erfCoeffs o.N <;> simp [flsInclined, ho, hc]

/-- **C157**, partial: with the approximation, an integer or an array without dimension gives the value of the float.  Missing: without the approximation, for which this
fails (`form_number_fails`). -/
theorem form_number_partial {o : FlsOpts} (ho : o.approximation = true) (na : Bool) (k : ℕ) (t : ℝ) (b1 b2 : Borehole) :
    flsForm o na (.int k) b1 b2 = flsForm o na (.float k) b1 b2 ∧ flsForm o na (.arr0 t) b1 b2 = flsForm o na (.float t) b1 b2 := by
  simp [flsForm, formNumber, ho]

/-- **C157** fails without the approximation: an integer, an array without dimension and, with `alpha` a python number, a list always raise an exception, though the float
and the array have values. -/
theorem form_number_fails {o : FlsOpts} (ho : o.approximation = false) (na : Bool) (k : ℕ) (t : ℝ) (b1 b2 : Borehole) :
    flsForm o na (.int k) b1 b2 = .raises ∧ flsForm o na (.arr0 t) b1 b2 = .raises ∧ flsForm o false (.list [t]) b1 b2 = .raises ∧
    (∃ x, flsForm o na (.float k) b1 b2 = .value (.pair (.one x))) ∧ (∃ x, flsForm o na (.float t) b1 b2 = .value (.pair (.one x))) := by
  obtain ⟨f, hf⟩ := at_value ho b1 b2
  exact ⟨by simp [flsForm, formNumber, ho], by simp [flsForm, formNumber, ho], rfl, ⟨f k, ofOption_value.mpr (hf _)⟩, ⟨f t, ofOption_value.mpr (hf _)⟩⟩

/-- **C157**, partial: without the approximation, any infinite float gives the value of `np.inf`, when the heads of inclined boreholes are not closer than the radius of the
source.  Missing: the other inclined boreholes (`form_infinity_self`) and the approximation (`form_infinity_fails`). -/
theorem form_infinity_partial {o : FlsOpts} (ho : o.approximation = false) (ha : 0 < o.alpha) (na : Bool) {b1 b2 : Borehole} (h : Usable o b1 b2)
    (hr : ¬ (isVertical b1 = true ∧ isVertical b2 = true) → b1.rb ^ 2 ≤ (b1.x - b2.x) ^ 2 + (b1.y - b2.y) ^ 2) :
    flsForm o na .otherInf b1 b2 = flsForm o na .npInf b1 b2 ∧ ∃ x, flsForm o na .npInf b1 b2 = .value (.pair (.one x)) := by
  obtain ⟨l, h1, h2⟩ := pair_infinity_partial o h ha hr
  obtain ⟨f, hf⟩ := at_value ho b1 b2
  have eo : { o with approximation := false } = o := by rw [← ho]
  rw [eo] at h2
  have e := tendsto_nhds_unique (infIntegral_limit ha ho h hf) (h2 f hf)
  have hn : flsForm o na .npInf b1 b2 = .value (.pair (.one l)) := ofOption_value.mpr h1
  refine ⟨?_, l, hn⟩
  rw [hn]
  simp [flsForm, ho, e]

/-- **C157**: for an inclined borehole acting on itself with both sources, without the approximation, `np.inf` and another infinite float give different values. -/
theorem form_infinity_self {o : FlsOpts} (ho : o.approximation = false) (hs : o.rea = true ∧ o.img = true) {b : Borehole} (hb : isVertical b = false) (h : Usable o b b)
    (ha : 0 < o.alpha) (hH : 0 < b.H) (hne : o.nodes ≠ []) (hw : ∀ n ∈ o.nodes, 0 < n.2) (na : Bool) :
    ∃ v l : ℝ, v < l ∧ flsForm o na .npInf b b = .value (.pair (.one v)) ∧ flsForm o na .otherInf b b = .value (.pair (.one l)) := by
  obtain ⟨v, l, hvl, h1, h2⟩ := pair_infinity_fails hs hb h ha hH hne hw
  obtain ⟨f, hf⟩ := at_value ho b b
  have eo : { o with approximation := false } = o := by rw [← ho]
  rw [eo] at h2
  have e := tendsto_nhds_unique (infIntegral_limit ha ho h hf) (h2 f hf)
  exact ⟨v, l, hvl, ofOption_value.mpr h1, by simp [flsForm, ho, e]⟩

/-- **C157** fails with the approximation: `np.inf` gives a value, and another infinite float never does, but for inclined boreholes without sources. -/
theorem form_infinity_fails {o : FlsOpts} (ho : o.approximation = true) (na : Bool) (b1 b2 : Borehole)
    (hs : isVertical b1 = true ∧ isVertical b2 = true ∨ o.rea = true ∨ o.img = true) :
    (∃ x, flsForm o na .npInf b1 b2 = .value (.pair (.one x))) ∧ ∀ r, flsForm o na .otherInf b1 b2 ≠ .value r := by
  constructor
  · simp only [flsForm, ofOption_value]
    by_cases hv : isVertical b1 = true ∧ isVertical b2 = true
    · exact ⟨_, by rw [pair_vertical hv.1 hv.2]; rfl⟩
    · exact ⟨_, by rw [pair_inclined hv]; rfl⟩
  · intro r
    simp only [flsForm, ho, if_true, infApprox]
    rcases hs with ⟨h1, h2⟩ | h | h
    · simp only [h1, h2, Bool.and_self, Bool.not_true, Bool.false_and, Bool.false_eq_true, if_false]
      split <;> simp
    · simp only [h, Bool.not_true, Bool.and_false, Bool.false_and, Bool.false_eq_true, if_false]
      split <;> simp
    · simp only [h, Bool.not_true, Bool.and_false, Bool.false_eq_true, if_false]
      split <;> simp

/-! ### Cases that meet the hypotheses -/

example := form_array (upright_usable ⟨1e-6, true, true, false, [], 10⟩) false [3600, 7200]
example := form_number_partial (o := ⟨1e-6, true, true, true, [], 10⟩) rfl false 3600 3600 uprightPair uprightPair
example := form_number_fails (o := ⟨1e-6, true, true, false, [], 10⟩) rfl false 3600 3600 uprightPair uprightPair
example := form_infinity_partial (o := ⟨1e-6, true, true, false, [], 10⟩) rfl (by norm_num) false (upright_usable _) fun h => absurd ⟨upright_sample, upright_sample⟩ h
example := form_infinity_partial (o := ⟨1e-6, true, true, false, [(0.5, 1)], 10⟩) rfl (by norm_num) false (tilted_usable _) fun _ => by norm_num [tiltedPair1, tiltedPair2]
example (N : ℤ) := form_infinity_self (o := ⟨1e-6, true, true, false, [(0.5, 1)], N⟩) rfl ⟨rfl, rfl⟩ tilted_sample
  ⟨by norm_num [tiltedPair1], by norm_num [tiltedPair1], by norm_num [tiltedPair1], fun _ => Incl.off_self (by norm_num [tiltedPair1]) (by norm_num [tiltedPair1])
    (by norm_num [tiltedPair1]) Incl.sample_cos.le Incl.sample_sin.ne' (by norm_num)⟩ (by norm_num) (by norm_num [tiltedPair1]) (by simp) (by norm_num) false
example := form_infinity_fails (o := ⟨1e-6, true, true, true, [], 10⟩) rfl false uprightPair uprightPair (.inl ⟨upright_sample, upright_sample⟩)

end Verif.FLS
