import Verif.FLS.EditModel
import Verif.FLS.PairProps

/-!
# C158: boreholes whose attributes are changed after they were created
-/

noncomputable section

namespace Verif.FLS

open Real MeasureTheory Bore

/-- The borehole that would be created with the present attributes. -/
def BoreObj.renew (o : BoreObj) : BoreObj := BoreObj.new o.b.H o.b.D o.b.rb o.b.x o.b.y o.b.tilt o.b.orientation

/-- Assignments that keep a vertical borehole vertical, with its orientation of 0, and an inclined one inclined. -/
def Edit.Keeps (inclined : Bool) : Edit → Prop
  | .tilt v => (|v| > 1 / 10 ^ 6) ↔ inclined = true
  | .orientation v => inclined = true ∨ v = 0
  | _ => True

theorem renew_eq {o : BoreObj} : o.renew = o ↔ o.flag = decide (tilted o.b.tilt) ∧ (o.flag = false → o.b.orientation = 0) := by
  constructor
  · intro h
    have h1 : o.flag = decide (tilted o.b.tilt) := by
      have := congrArg BoreObj.flag h
      exact this.symm
    refine ⟨h1, fun h2 => ?_⟩
    rw [← h]
    have h3 : ¬ tilted o.b.tilt := by simpa [h1] using h2
    show (if tilted o.b.tilt then o.b.orientation else 0) = 0
    rw [if_neg h3]
  · rintro ⟨h1, h2⟩
    unfold BoreObj.renew BoreObj.new Borehole.new
    ext <;> try rfl
    · show (if tilted o.b.tilt then o.b.orientation else 0) = o.b.orientation
      split
      · rfl
      · rename_i h; exact (h2 (by simp [h1, h])).symm
    · exact h1.symm

theorem new_renew (H D rb x y tilt orientation : ℝ) : (BoreObj.new H D rb x y tilt orientation).renew = BoreObj.new H D rb x y tilt orientation := by
  refine renew_eq.mpr ⟨rfl, fun h => ?_⟩
  have h1 : ¬ tilted tilt := by simpa [BoreObj.new] using h
  show (if tilted tilt then orientation else 0) = 0
  rw [if_neg h1]

theorem edits_keep (l : List Edit) : ∀ {o : BoreObj}, o.renew = o → (∀ e ∈ l, e.Keeps o.flag) → (o.edits l).renew = o.edits l ∧ (o.edits l).flag = o.flag := by
  induction l with
  | nil => intro o h _; exact ⟨h, rfl⟩
  | cons e l ih =>
    intro o h hk
    have hf : (o.edit e).flag = o.flag := by cases e <;> rfl
    have h1 : (o.edit e).renew = o.edit e := by
      obtain ⟨a, b⟩ := renew_eq.mp h
      have hk := hk e List.mem_cons_self
      refine renew_eq.mpr ?_
      cases e with
      | tilt v =>
        refine ⟨?_, b⟩
        show o.flag = decide (tilted v)
        have hk : tilted v ↔ o.flag = true := hk
        cases hh : o.flag <;> simp [hh] at hk <;> simp [hk]
      | orientation v =>
        refine ⟨a, fun h0 => ?_⟩
        have h0 : o.flag = false := h0
        rcases hk with h | h
        · simp [h0] at h
        · exact h
      | _ => exact ⟨a, b⟩
    have := ih h1 fun e' he => hf ▸ hk e' (List.mem_cons_of_mem _ he)
    exact ⟨this.1, this.2.trans hf⟩

/-- The attributes, numbered as in the call that creates the borehole. -/
def attr7 (b : Borehole) : Fin 7 → ℝ := ![b.H, b.D, b.rb, b.x, b.y, b.tilt, b.orientation]

/-- The attribute that is assigned, and the value. -/
def Edit.target : Edit → Fin 7 × ℝ
  | .H v => (0, v)
  | .D v => (1, v)
  | .rb v => (2, v)
  | .x v => (3, v)
  | .y v => (4, v)
  | .tilt v => (5, v)
  | .orientation v => (6, v)

theorem edit_attr (w : BoreObj) (e : Edit) (i : Fin 7) : attr7 (w.edit e).b i = if e.target.1 = i then e.target.2 else attr7 w.b i := by
  unfold attr7
  cases e <;> fin_cases i <;> simp [BoreObj.edit, Edit.target]

/-- **C158**: each attribute has the value assigned last, or the one it had. -/
theorem edit_attributes (o : BoreObj) (l : List Edit) (i : Fin 7) :
    attr7 (o.edits l).b i = (((l.filter fun e => e.target.1 = i).getLast?).map fun e => e.target.2).getD (attr7 o.b i) := by
  induction l using List.reverseRecOn with
  | nil => rfl
  | append_singleton l e ih =>
    have h1 : o.edits (l ++ [e]) = (o.edits l).edit e := by simp [BoreObj.edits]
    rw [h1, edit_attr, List.filter_append, ih]
    by_cases h : e.target.1 = i <;> simp [h]

/-- **C158**, partial: after any assignments to the attributes of two boreholes, in any number and order, that do not turn a vertical borehole into an inclined one or back,
the response is that of boreholes created with the present attributes.  Missing: assignments to `tilt` that change this, for which this fails (`edit_tilt_fails`). -/
theorem edit_partial (a1 a2 : Fin 7 → ℝ) (l1 l2 : List Edit) {o1 o2 : BoreObj} (h1 : o1 = BoreObj.new (a1 0) (a1 1) (a1 2) (a1 3) (a1 4) (a1 5) (a1 6))
    (h2 : o2 = BoreObj.new (a2 0) (a2 1) (a2 2) (a2 3) (a2 4) (a2 5) (a2 6)) (k1 : ∀ e ∈ l1, e.Keeps (decide (|a1 5| > 1 / 10 ^ 6)))
    (k2 : ∀ e ∈ l2, e.Keeps (decide (|a2 5| > 1 / 10 ^ 6))) (o : FlsOpts) (time : When) :
    flsObj o time (o1.edits l1) (o2.edits l2) = finiteLineSource o time (.one (o1.edits l1).renew.b) (.one (o2.edits l2).renew.b) := by
  have e1 := (edits_keep l1 (h1 ▸ new_renew ..) (by rw [h1]; exact k1)).1
  have e2 := (edits_keep l2 (h2 ▸ new_renew ..) (by rw [h2]; exact k2)).1
  have v : ∀ {w : BoreObj}, w.renew = w → w.isVertical = isVertical w.b := fun {w} hw => by
    unfold BoreObj.isVertical isVertical
    rw [(renew_eq.mp hw).1]
  rw [e1, e2]
  show flsObj o time _ _ = flsPair o time _ _
  unfold flsObj flsPair
  rw [v e1, v e2]

/-- **C158**: the segments of a borehole, after any assignments, are those of a borehole created with the present attributes, provided that an orientation was not assigned to
a vertical borehole or was of no effect; and they are consistent themselves. -/
theorem edit_segments (o : BoreObj) (l : List Edit) (ratios : List ℝ) (hs : (o.edits l).b.orientation = 0 ∨ |(o.edits l).b.tilt| > 1 / 10 ^ 6) :
    (o.edits l).segments ratios = (o.edits l).renew.segments ratios ∧ ∀ s ∈ (o.edits l).segments ratios, s.renew = s := by
  obtain ⟨w, hw⟩ : ∃ w, w = o.edits l := ⟨_, rfl⟩
  rw [← hw] at hs ⊢
  constructor
  · have : w.renew.b = w.b := by
      unfold BoreObj.renew BoreObj.new Borehole.new
      ext <;> try rfl
      show (if tilted w.b.tilt then w.b.orientation else 0) = w.b.orientation
      rcases hs with h | h
      · simp [h]
      · rw [if_pos (show tilted w.b.tilt from h)]
    unfold BoreObj.segments
    rw [this]
  · intro s hs
    obtain ⟨r, -, rfl⟩ := List.mem_map.mp hs
    exact new_renew ..

/-- **C158** fails when the tilt of vertical boreholes is assigned: whatever the tilts and orientations assigned, the response stays that of the vertical boreholes. -/
theorem edit_tilt_ignored (a1 a2 : Fin 7 → ℝ) {o1 o2 : BoreObj} (h1 : o1 = BoreObj.new (a1 0) (a1 1) (a1 2) (a1 3) (a1 4) 0 (a1 6))
    (h2 : o2 = BoreObj.new (a2 0) (a2 1) (a2 2) (a2 3) (a2 4) 0 (a2 6)) (t1 t2 r1 r2 : ℝ) (o : FlsOpts) (time : When) :
    flsObj o time (o1.edits [.tilt t1, .orientation r1]) (o2.edits [.tilt t2, .orientation r2]) = finiteLineSource o time (.one o1.b) (.one o2.b) := by
  have nt : ¬ tilted 0 := by unfold tilted; norm_num
  have f1 : o1.flag = false := by rw [h1]; simp [BoreObj.new, nt]
  have f2 : o2.flag = false := by rw [h2]; simp [BoreObj.new, nt]
  rw [pair_vertical (vertical_of_zero (by rw [h1]; rfl)) (vertical_of_zero (by rw [h2]; rfl))]
  unfold flsObj BoreObj.isVertical
  simp only [BoreObj.edits, List.foldl_cons, List.foldl_nil, BoreObj.edit, f1, f2, Bool.not_false, Bool.and_self, if_true]
  rfl

/-- The steady value of vertical boreholes is at most that of points at their distance. -/
theorem steady_le_dist {g : Pair} (hg : g.Ok) : steady g true false ≤ g.H1 / (2 * g.dis) := by
  have hd := hg.dis
  have hH := hg.H2
  rw [steady_eq hg]
  unfold quad
  simp only
  rw [int_rea hg le_rfl]
  simp only [zero_mul, erf_zero, sub_zero]
  have i1 : ∀ z, ‖∫ w in g.D1..g.D1 + g.H1, 1 / √(g.dis ^ 2 + (z - w) ^ 2)‖ ≤ 1 / g.dis * g.H1 := fun z => by
    have := intervalIntegral.norm_integral_le_of_norm_le_const (a := g.D1) (b := g.D1 + g.H1) (f := fun w => 1 / √(g.dis ^ 2 + (z - w) ^ 2)) (C := 1 / g.dis) fun w _ => by
      rw [norm_of_nonneg (by positivity)]
      exact one_div_le_one_div_of_le hd (le_sqrt_of_sq_le (by nlinarith [sq_nonneg (z - w)]))
    rwa [add_sub_cancel_left, abs_of_nonneg hg.H1] at this
  have i2 := intervalIntegral.norm_integral_le_of_norm_le_const (a := g.D2) (b := g.D2 + g.H2)
    (f := fun z => ∫ w in g.D1..g.D1 + g.H1, 1 / √(g.dis ^ 2 + (z - w) ^ 2)) fun z _ => i1 z
  rw [add_sub_cancel_left, abs_of_pos hH] at i2
  refine (mul_le_mul_of_nonneg_left ((le_abs_self _).trans i2) (by positivity)).trans (le_of_eq ?_)
  field_simp
  norm_num
  ring

/-- A borehole of 10 m, inclined by 60 degrees towards the other. -/
def leaning (tilt : ℝ) : BoreObj := BoreObj.new 10 1 0.075 0 0 tilt 0
def upright10 : BoreObj := BoreObj.new 1 3 0.075 10 0 0 0

theorem leaning_tilted : tilted (π / 3) := by
  unfold tilted
  rw [abs_of_pos (by positivity)]
  linarith [pi_gt_three]

theorem leaning_dx (v : ℝ) : Incl.px (leaning (π / 3)).b (0.5 * (leaning (π / 3)).b.H) - Incl.px upright10.b v = 5 * (√3 / 2) - 10 := by
  have nt : ¬ tilted 0 := by unfold tilted; norm_num
  simp only [Incl.px, leaning, upright10, BoreObj.new, Borehole.new, if_pos leaning_tilted, if_neg nt, sin_zero, cos_zero, sin_pi_div_three]
  ring

theorem leaning_dx_neg : 5 * (√3 / 2) - 10 < 0 := by
  have h4 : √3 ≤ 1.8 := sqrt_le_iff.mpr ⟨by norm_num, by norm_num⟩
  linarith

theorem leaning_gap : Incl.gap (leaning (π / 3)).b upright10.b = 0 := by
  unfold Incl.gap
  exact max_eq_left (by norm_num [leaning, upright10, BoreObj.new, Borehole.new])

theorem leaning_off : Incl.Off (leaning (π / 3)).b upright10.b [(0.5, 1)] := by
  have h := sq_pos_of_neg leaning_dx_neg
  refine ⟨by norm_num [upright10, BoreObj.new, Borehole.new], fun n hn v => ?_, fun n hn v => ?_⟩
  · rw [List.mem_singleton.mp hn, leaning_gap]
    unfold Incl.dist2
    rw [leaning_dx]
    positivity
  · rw [List.mem_singleton.mp hn]
    unfold Incl.dist2img
    rw [leaning_dx]
    positivity

theorem leaning_dist (v : ℝ) (h0 : 0 ≤ v) (h1 : v ≤ 1) : Incl.dist2 (leaning (π / 3)).b upright10.b 0.5 v ≤ 36 := by
  have hc : cos (π / 3) = 1 / 2 := cos_pi_div_three
  have hs : sin (π / 3) = √3 / 2 := sin_pi_div_three
  have h3 : 1.7 ≤ √3 := le_sqrt_of_sq_le (by norm_num)
  have h4 : √3 ≤ 1.8 := sqrt_le_iff.mpr ⟨by norm_num, by norm_num⟩
  simp only [Incl.dist2, Incl.px, Incl.py, Incl.pz, leaning, upright10, BoreObj.new, Borehole.new, hc, hs, if_pos leaning_tilted, sin_zero, cos_zero]
  have : ¬ tilted 0 := by unfold tilted; norm_num
  simp only [if_neg this, sin_zero, cos_zero]
  nlinarith

/-- **C158** fails: two vertical boreholes, of which one is inclined by an assignment, at infinite time with the real source and one quadrature node: the value returned is
smaller than that of the borehole created with this tilt. -/
theorem edit_tilt_fails : ∃ (o : FlsOpts) (o1 o2 : BoreObj) (v w : ℝ), o1 = leaning 0 ∧ o2 = upright10 ∧ v < w ∧
    flsObj o .inf (o1.edits [.tilt (π / 3)]) o2 = some (.pair (.one v)) ∧
    finiteLineSource o .inf (.one (o1.edits [.tilt (π / 3)]).renew.b) (.one o2.b) = some (.pair (.one w)) := by
  have nt : ¬ tilted 0 := by unfold tilted; norm_num
  have hb : ((leaning 0).edits [.tilt (π / 3)]).renew.b = (leaning (π / 3)).b := by
    simp [BoreObj.edits, BoreObj.edit, BoreObj.renew, leaning, BoreObj.new, Borehole.new]
  have hv : isVertical (leaning (π / 3)).b = false := by
    unfold isVertical
    rw [decide_eq_true (show tilted (leaning (π / 3)).b.tilt from leaning_tilted)]
    rfl
  have hnv : ¬ (isVertical (leaning (π / 3)).b = true ∧ isVertical upright10.b = true) := by simp [hv]
  refine ⟨⟨1e-6, true, false, false, [(0.5, 1)], 10⟩, leaning 0, upright10, steady (pairOf (leaning 0).b upright10.b) true false,
    Incl.steady (leaning (π / 3)).b upright10.b [(0.5, 1)] true false, rfl, rfl, ?_, ?_, ?_⟩
  · have h1 : steady (pairOf (leaning 0).b upright10.b) true false ≤ 1 / 2 := by
      have hg : (pairOf (leaning 0).b upright10.b).Ok :=
        ⟨lt_max_of_lt_left (by norm_num [leaning, BoreObj.new, Borehole.new]), by norm_num [pairOf, leaning, BoreObj.new, Borehole.new],
          by norm_num [pairOf, upright10, BoreObj.new, Borehole.new]⟩
      have hd : (10 : ℝ) ≤ (pairOf (leaning 0).b upright10.b).dis := le_max_of_le_right (le_sqrt_of_sq_le (by norm_num [leaning, upright10, BoreObj.new, Borehole.new]))
      refine (steady_le_dist hg).trans ?_
      show (10 : ℝ) / _ ≤ _
      rw [div_le_iff₀ (by linarith)]
      linarith
    have h2 : (1 : ℝ) / 6 ≤ ∫ v in (0 : ℝ)..1, 1 / √(Incl.dist2 (leaning (π / 3)).b upright10.b 0.5 v) := by
      have hp : ∀ v, 0 < Incl.dist2 (leaning (π / 3)).b upright10.b 0.5 v := fun v => by
        have := leaning_off.rea (0.5, 1) (by simp) v
        rwa [leaning_gap, add_zero] at this
      have hc : Continuous fun v => 1 / √(Incl.dist2 (leaning (π / 3)).b upright10.b 0.5 v) :=
        continuous_const.div (by unfold Incl.dist2 Incl.px Incl.py Incl.pz; fun_prop) fun v => (sqrt_pos.mpr (hp v)).ne'
      have := intervalIntegral.integral_mono_on (a := (0 : ℝ)) (b := 1) (f := fun _ => (1 : ℝ) / 6) zero_le_one (μ := volume) intervalIntegrable_const (hc.intervalIntegrable _ _) fun v hv =>
        one_div_le_one_div_of_le (sqrt_pos.mpr (hp v)) (sqrt_le_iff.mpr ⟨by norm_num, (leaning_dist v hv.1 hv.2).trans (by norm_num)⟩)
      simpa using this
    rw [(Incl.inclined_steady leaning_off).1]
    unfold Incl.nodesMean
    simp only [List.map_cons, List.map_nil, List.sum_cons, List.sum_nil, leaning_gap, add_zero]
    show _ < 1 * 10 * ((∫ v in (0 : ℝ)..1, 1 / √(Incl.dist2 (leaning (π / 3)).b upright10.b 0.5 v)) / 1) / 2
    linarith
  · have f1 : (leaning 0).flag = false := by simp [leaning, BoreObj.new, nt]
    have f2 : upright10.flag = false := by simp [upright10, BoreObj.new, nt]
    unfold flsObj BoreObj.isVertical
    simp only [BoreObj.edits, List.foldl_cons, List.foldl_nil, BoreObj.edit, f1, f2, Bool.not_false, Bool.and_self, if_true]
    rfl
  · rw [hb, pair_inclined hnv]; rfl

/-! ### Cases that meet the hypotheses -/

example (o : FlsOpts) := edit_partial ![150, 4, 0.075, 0, 0, 0, 0] ![150, 4, 0.075, 7.5, 0, 0.3, 1] [.H 100, .x 2, .H 120] [.tilt 0.5, .orientation 2] rfl rfl
  (by simp [Edit.Keeps]) (by simp [Edit.Keeps]; norm_num [abs_of_pos]) o (.at 3600)
example := edit_attributes (leaning 0) [.H 100, .tilt 1, .H 120] 0
example := edit_segments (leaning 0) [.tilt (π / 3)] [0.5, 0.5] (.inl (by simp [leaning, BoreObj.new, Borehole.new, BoreObj.edits, BoreObj.edit]))
example (o : FlsOpts) := edit_tilt_ignored ![150, 4, 0.075, 0, 0, 0, 0] ![150, 4, 0.075, 7.5, 0, 0, 1] rfl rfl 0.3 0.4 1 2 o (.at 3600)

end Verif.FLS
