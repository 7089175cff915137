import Verif.FLS.ListProps

/-!
# C116: the value for two boreholes, at one time, at several times and at infinity
-/

noncomputable section

namespace Verif.FLS

open Real MeasureTheory Bore Filter

/-- Half the difference of the parts of the sources that are included. -/
def combine (rea img : Bool) (R I : ℝ) : ℝ := ((if rea then R else 0) - (if img then I else 0)) / 2

/-- The pair can be evaluated: the source has a radius, the receiver a length, and inclined boreholes do not meet. -/
structure Usable (o : FlsOpts) (b1 b2 : Borehole) : Prop where
  rb : 0 < b1.rb
  H1 : 0 ≤ b1.H
  H2 : 0 < b2.H
  off : ¬ (isVertical b1 = true ∧ isVertical b2 = true) → Incl.Off b1 b2 o.nodes

theorem Usable.ok {o : FlsOpts} {b1 b2 : Borehole} (h : Usable o b1 b2) : (pairOf b1 b2).Ok := ⟨lt_max_of_lt_left h.rb, h.H1, h.H2⟩

theorem pair_vertical {b1 b2 : Borehole} (h1 : isVertical b1 = true) (h2 : isVertical b2 = true) (o : FlsOpts) (time : When) :
    finiteLineSource o time (.one b1) (.one b2) = (flsVertical o (pairOf b1 b2) time).map .pair := by
  show flsPair o time b1 b2 = _
  unfold flsPair
  rw [h1, h2]; rfl

theorem pair_inclined {b1 b2 : Borehole} (h : ¬ (isVertical b1 = true ∧ isVertical b2 = true)) (o : FlsOpts) (time : When) :
    finiteLineSource o time (.one b1) (.one b2) = (flsInclined o b1 b2 time).map .pair := by
  show flsPair o time b1 b2 = _
  unfold flsPair
  rw [if_neg (by rwa [Bool.and_eq_true])]

/-- **C116**: for two vertical boreholes, without the approximation, the value at one time is half the mean, over the receiver, of the temperature of the line of point
sources along the first borehole, minus that of its image above ground, according to the sources included. -/
theorem pair_vertical_value {o : FlsOpts} (ho : o.approximation = false) {b1 b2 : Borehole} (h1 : isVertical b1 = true) (h2 : isVertical b2 = true) (hr : 0 < b1.rb)
    (hH1 : 0 ≤ b1.H) (hH2 : 0 < b2.H) {d : ℝ} (hd : d = max b1.rb √((b1.x - b2.x) ^ 2 + (b1.y - b2.y) ^ 2)) (t : ℝ) :
    finiteLineSource o (.at t) (.one b1) (.one b2)
      = some (.pair (.one (combine o.rea o.img (meanOver b2.D b2.H (lineAt o.alpha t d b1.D b1.H)) (meanOver b2.D b2.H (imageAt o.alpha t d b1.D b1.H))))) := by
  have hg : (pairOf b1 b2).Ok := ⟨lt_max_of_lt_left hr, hH1, hH2⟩
  obtain ⟨e1, e2, e3⟩ := line_of_points t o.alpha hg
  have e0 := (real_plus_image t o.alpha hg).2
  have hp : (pairOf b1 b2).dis = d := by rw [hd]; rfl
  rw [hp] at e1 e2 e3
  rw [pair_vertical h1 h2]
  unfold flsVertical
  simp only [ho, Bool.false_eq_true, if_false, Option.map_some]
  congr 3
  cases hrea : o.rea <;> cases himg : o.img <;> simp only [combine, if_true, if_false, Bool.false_eq_true, e0, e1, e2, e3] <;>
    simp [pairOf]

/-- **C116**: the same when one of the two boreholes is inclined, and the heads are not closer than the radius of the source: the source is the weighted list of nodes. -/
theorem pair_inclined_value {o : FlsOpts} (ho : o.approximation = false) {b1 b2 : Borehole} (h : ¬ (isVertical b1 = true ∧ isVertical b2 = true))
    (ha : Incl.Apart b1 b2 o.nodes) (hr : b1.rb ^ 2 ≤ (b1.x - b2.x) ^ 2 + (b1.y - b2.y) ^ 2) (t : ℝ) :
    finiteLineSource o (.at t) (.one b1) (.one b2)
      = some (.pair (.one (combine o.rea o.img (Incl.nodesMean b1 b2 o.nodes (pointSource o.alpha t) (Incl.dist2 b1 b2))
        (Incl.nodesMean b1 b2 o.nodes (pointSource o.alpha t) (Incl.dist2img b1 b2))))) := by
  have hgap : Incl.gap b1 b2 = 0 := by unfold Incl.gap; exact max_eq_left (by linarith)
  obtain ⟨e1, e2, e3⟩ := Incl.inclined_points t o.alpha ha
  simp only [hgap, add_zero] at e1 e2 e3
  rw [pair_inclined h]
  unfold flsInclined
  simp only [ho, Bool.false_eq_true, if_false, Option.map_some]
  congr 3
  cases hrea : o.rea <;> cases himg : o.img <;> simp only [combine, if_true, if_false, Bool.false_eq_true, e1, e2, e3]
  · simp [Incl.fls, quad, Incl.integrand]
  all_goals simp

/-- **C116**: with an array of times, in any order, the values are those of the calls with one time, with the approximation or without. -/
theorem pair_times {o : FlsOpts} {b1 b2 : Borehole} (h : Usable o b1 b2) (ts : List ℝ) {r : Res} (hr : finiteLineSource o (.array ts) (.one b1) (.one b2) = some r) :
    ∃ l : List ℝ, r = .pair (.many l) ∧ l.length = ts.length ∧
      ∀ (i : ℕ) (t : ℝ), ts[i]? = some t → ∃ x, l[i]? = some x ∧ finiteLineSource o (.at t) (.one b1) (.one b2) = some (.pair (.one x)) := by
  by_cases hv : isVertical b1 = true ∧ isVertical b2 = true
  · simp only [pair_vertical hv.1 hv.2] at hr ⊢
    unfold flsVertical at hr ⊢
    cases ho : o.approximation
    · simp only [ho, Bool.false_eq_true, if_false, Option.map_some, Option.some.injEq] at hr ⊢
      rw [times_vector ts o.alpha h.ok] at hr
      exact ⟨_, hr.symm, by simp, fun i t hi => ⟨_, by rw [List.getElem?_map, hi]; rfl, rfl⟩⟩
    · simp only [ho, if_true] at hr ⊢
      cases hc : erfCoeffs o.N with
      | none => rw [hc] at hr; exact absurd hr (by simp)
      | some ab =>
        rw [hc] at hr
        simp only [Option.map_some, Option.some.injEq] at hr
        exact ⟨_, hr.symm, by simp, fun i t hi => ⟨_, by rw [List.getElem?_map, hi]; rfl, by simp [approx, hc]⟩⟩
  · simp only [pair_inclined hv] at hr ⊢
    unfold flsInclined at hr ⊢
    cases ho : o.approximation
    · simp only [ho, Bool.false_eq_true, if_false, Option.map_some, Option.some.injEq] at hr ⊢
      rw [Incl.inclined_times_vector ts o.alpha (h.off hv).apart] at hr
      exact ⟨_, hr.symm, by simp, fun i t hi => ⟨_, by rw [List.getElem?_map, hi]; rfl, rfl⟩⟩
    · simp only [ho, if_true] at hr ⊢
      cases hc : erfCoeffs o.N with
      | none => rw [hc] at hr; exact absurd hr (by simp)
      | some ab =>
        rw [hc] at hr
        simp only [Option.map_some, Option.some.injEq] at hr
        exact ⟨_, hr.symm, by simp, fun i t hi => ⟨_, by rw [List.getElem?_map, hi]; rfl, by simp [Incl.approx, hc]⟩⟩

/-- **C116**, partial: the value at infinity, with the approximation or without, is the limit of the values without the approximation, when the heads of inclined boreholes
are not closer than the radius of the source.  Missing: the other inclined boreholes, in particular a borehole acting on itself, for which this fails
(`pair_infinity_fails`). -/
theorem pair_infinity_partial (o : FlsOpts) {b1 b2 : Borehole} (h : Usable o b1 b2) (ha : 0 < o.alpha)
    (hr : ¬ (isVertical b1 = true ∧ isVertical b2 = true) → b1.rb ^ 2 ≤ (b1.x - b2.x) ^ 2 + (b1.y - b2.y) ^ 2) :
    ∃ l, finiteLineSource o .inf (.one b1) (.one b2) = some (.pair (.one l)) ∧
      ∀ f : ℝ → ℝ, (∀ t, finiteLineSource { o with approximation := false } (.at t) (.one b1) (.one b2) = some (.pair (.one (f t)))) → Tendsto f atTop (nhds l) := by
  by_cases hv : isVertical b1 = true ∧ isVertical b2 = true
  · refine ⟨_, by rw [pair_vertical hv.1 hv.2]; rfl, fun f hf => ?_⟩
    have e : f = fun t => fls t o.alpha (pairOf b1 b2) o.rea o.img := by
      funext t
      have := hf t
      rw [pair_vertical hv.1 hv.2] at this
      simpa [flsVertical] using this.symm
    rw [e]
    exact tends_to_steady ha h.ok _ _
  · refine ⟨_, by rw [pair_inclined hv]; rfl, fun f hf => ?_⟩
    have e : f = fun t => Incl.fls t o.alpha b1 b2 o.nodes o.rea o.img := by
      funext t
      have := hf t
      rw [pair_inclined hv] at this
      simpa [flsInclined] using this.symm
    rw [e]
    exact Incl.inclined_tends_to_steady_partial (h.off hv) ha _ _ fun _ _ => hr hv

/-- **C116** fails for an inclined borehole acting on itself, with both sources: the values tend to a limit greater than the value at infinity. -/
theorem pair_infinity_fails {o : FlsOpts} (hs : o.rea = true ∧ o.img = true) {b : Borehole} (hb : isVertical b = false) (h : Usable o b b) (ha : 0 < o.alpha) (hH : 0 < b.H)
    (hne : o.nodes ≠ []) (hw : ∀ n ∈ o.nodes, 0 < n.2) :
    ∃ v l : ℝ, v < l ∧ finiteLineSource o .inf (.one b) (.one b) = some (.pair (.one v)) ∧
      ∀ f : ℝ → ℝ, (∀ t, finiteLineSource { o with approximation := false } (.at t) (.one b) (.one b) = some (.pair (.one (f t)))) → Tendsto f atTop (nhds l) := by
  have hv : ¬ (isVertical b = true ∧ isVertical b = true) := by simp [hb]
  obtain ⟨l, hl, ht⟩ := Incl.inclined_tends_to_steady_fails (h.off hv) ha hH hne hw (by have := h.rb; simp; positivity)
  refine ⟨_, l, hl, by rw [pair_inclined hv]; unfold flsInclined; rw [hs.1, hs.2]; rfl, fun f hf => ?_⟩
  have e : f = fun t => Incl.fls t o.alpha b b o.nodes true true := by
    funext t
    have := hf t
    rw [pair_inclined hv] at this
    simpa [flsInclined, hs.1, hs.2] using this.symm
  rwa [e]

/-! ### Cases that meet the hypotheses -/

/-- Two boreholes 5 m apart in the direction `x`, inclined by 0.5 rad in the direction `y`. -/
def tiltedPair1 : Borehole := ⟨100, 4, 0.075, 0, 0, 0.5, π / 2⟩
def tiltedPair2 : Borehole := ⟨150, 2, 0.075, 5, 0, 0.5, π / 2⟩

/-- A vertical borehole. -/
def uprightPair : Borehole := ⟨150, 2, 0.075, 3, 4, 0, 0⟩

theorem tilted_sample : isVertical tiltedPair1 = false := by
  have h : tilted tiltedPair1.tilt := by
    unfold tilted tiltedPair1
    rw [abs_of_pos (by norm_num)]
    norm_num
  unfold isVertical
  rw [decide_eq_true h]
  rfl

theorem upright_sample : isVertical uprightPair = true := vertical_of_zero rfl

theorem tilted_usable (o : FlsOpts) : Usable o tiltedPair1 tiltedPair2 := by
  refine ⟨by norm_num [tiltedPair1], by norm_num [tiltedPair1], by norm_num [tiltedPair2], fun _ => ⟨by norm_num [tiltedPair2], fun n _ v => ?_, fun n _ v => ?_⟩⟩
  · have := Incl.gap_nonneg tiltedPair1 tiltedPair2
    have e : Incl.px tiltedPair1 (n.1 * tiltedPair1.H) - Incl.px tiltedPair2 v = -5 := by simp [Incl.px, tiltedPair1, tiltedPair2]
    unfold Incl.dist2
    rw [e]
    positivity
  · have e : Incl.px tiltedPair1 (n.1 * tiltedPair1.H) - Incl.px tiltedPair2 v = -5 := by simp [Incl.px, tiltedPair1, tiltedPair2]
    unfold Incl.dist2img
    rw [e]
    positivity

theorem upright_usable (o : FlsOpts) : Usable o uprightPair uprightPair :=
  ⟨by norm_num [uprightPair], by norm_num [uprightPair], by norm_num [uprightPair], fun h => absurd ⟨upright_sample, upright_sample⟩ h⟩

example (t alpha : ℝ) (N : ℤ) := pair_vertical_value (o := ⟨alpha, true, false, false, [], N⟩) rfl upright_sample upright_sample (by norm_num [uprightPair])
  (by norm_num [uprightPair]) (by norm_num [uprightPair]) rfl t
example (t alpha : ℝ) (N : ℤ) := pair_inclined_value (o := ⟨alpha, false, true, false, [(0.5, 1)], N⟩) rfl (by simp [tilted_sample])
  ((tilted_usable _).off (by simp [tilted_sample])).apart (by norm_num [tiltedPair1, tiltedPair2]) t
example (alpha : ℝ) : ∃ l : List ℝ, finiteLineSource ⟨alpha, true, true, true, [], 10⟩ (.array [7200, 3600]) (.one uprightPair) (.one uprightPair) = some (.pair (.many l)) ∧ l.length = 2 := by
  have h0 : (erfCoeffs 10).isSome := by obtain ⟨l, h, -⟩ := erfCoeffs_some (N := 10) (by norm_num) (by norm_num); rw [h]; rfl
  obtain ⟨r, hr⟩ := Option.isSome_iff_exists.mp (lists_return ⟨alpha, true, true, true, [], 10⟩ (.array [7200, 3600]) (.one uprightPair) (.one uprightPair) fun _ => h0)
  obtain ⟨l, rfl, hl, -⟩ := pair_times (upright_usable _) _ hr
  exact ⟨l, hr, hl⟩
example (N : ℤ) := pair_infinity_partial ⟨1e-6, true, true, false, [(0.5, 1)], N⟩ (tilted_usable _) (by norm_num) fun _ => by norm_num [tiltedPair1, tiltedPair2]
example (N : ℤ) := pair_infinity_partial ⟨1e-6, false, true, true, [], N⟩ (upright_usable _) (by norm_num) fun h => absurd ⟨upright_sample, upright_sample⟩ h
example (N : ℤ) := pair_infinity_fails (o := ⟨1e-6, true, true, false, [(0.5, 1)], N⟩) ⟨rfl, rfl⟩ tilted_sample
  ⟨by norm_num [tiltedPair1], by norm_num [tiltedPair1], by norm_num [tiltedPair1], fun _ => Incl.off_self (by norm_num [tiltedPair1]) (by norm_num [tiltedPair1])
    (by norm_num [tiltedPair1]) Incl.sample_cos.le Incl.sample_sin.ne' (by norm_num)⟩ (by norm_num) (by norm_num [tiltedPair1]) (by simp) (by norm_num)

end Verif.FLS
