import Verif.Bore.DrawModel
import Verif.Bore.FieldProps
import Verif.Bore.SegmentsProps

/-!
# Property C161: what the views of a bore field draw
-/

noncomputable section

namespace Verif.Bore

open Real

/-- Specification: projection on the ground surface. -/
def ground (p : ℝ × ℝ × ℝ) : ℝ × ℝ := (p.1, p.2.1)

/-- Specification: the figure of a list of boreholes.  Each borehole is a mark at its head and a line from head to toe;
its label is its position in the list. -/
def figureOf (bs : List Borehole) (o : ViewOptions) : Figure where
  top := if o.viewTop then some
    ⟨if o.showTilt then bs.map fun b => (ground (headPoint b), ground (toePoint b)) else [],
      bs.map fun b => ground (headPoint b),
      if o.labels then bs.zipIdx.map fun bi => (ground (headPoint bi.1), bi.2) else []⟩ else none
  space := if o.view3D then some ⟨bs.map headPoint, bs.map fun b => (headPoint b, toePoint b)⟩ else none

theorem toe_x (b : Borehole) : b.x + b.H * sin b.tilt * cos b.orientation = (toePoint b).1 := by
  simp only [toePoint, axisPoint]; ring
theorem toe_y (b : Borehole) : b.y + b.H * sin b.tilt * sin b.orientation = (toePoint b).2.1 := by
  simp only [toePoint, axisPoint]; ring
theorem toe_z (b : Borehole) : b.D + b.H * cos b.tilt = (toePoint b).2.2 := rfl

theorem topFold (o : ViewOptions) (bs : List Borehole) (v : TopView) (k : ℕ) :
    (bs.foldl (topStep o) (v, k)).1 =
      ⟨v.lines ++ (if o.showTilt then bs.map fun b => (ground (headPoint b), ground (toePoint b)) else []),
        v.marks ++ bs.map fun b => ground (headPoint b),
        v.labels ++ (if o.labels then (bs.zipIdx k).map fun bi => (ground (headPoint bi.1), bi.2) else [])⟩ := by
  induction bs generalizing v k with
  | nil => cases h1 : o.showTilt <;> cases h2 : o.labels <;> simp
  | cons b bs ih =>
    rw [List.foldl_cons, topStep, ih, toe_x, toe_y]
    cases h1 : o.showTilt <;> cases h2 : o.labels <;> simp [ground, headPoint]

theorem spaceFold (bs : List Borehole) (v : SpaceView) :
    bs.foldl spaceStep v = ⟨v.marks ++ bs.map headPoint, v.lines ++ bs.map fun b => (headPoint b, toePoint b)⟩ := by
  induction bs generalizing v with
  | nil => simp
  | cons b bs ih =>
    rw [List.foldl_cons, spaceStep, ih, toe_x, toe_y, toe_z]
    simp [headPoint]

/-- **C161** (function).  Any list of boreholes. -/
theorem drawList_spec (bs : List Borehole) (o : ViewOptions) : drawList bs o = figureOf bs o := by
  unfold drawList figureOf
  rw [topFold, spaceFold]
  simp

theorem zipWith_maps {α β γ δ : Type} (g : β → γ → δ) (p : α → β) (q : α → γ) (l : List α) :
    List.zipWith g (l.map p) (l.map q) = l.map fun a => g (p a) (q a) := by
  induction l with
  | nil => rfl
  | cons a l ih => simp [ih]

theorem zip_maps {α β γ : Type} (p : α → β) (q : α → γ) (l : List α) :
    (l.map p).zip (l.map q) = l.map fun a => (p a, q a) := by
  induction l with
  | nil => rfl
  | cons a l ih => simp [ih]

theorem bottom_eq (f : Borefield) (hf : f.WF) :
    f.xH = f.toBoreholes.map (fun b => (toePoint b).1) ∧ f.yH = f.toBoreholes.map (fun b => (toePoint b).2.1) ∧
      f.zH = f.toBoreholes.map (fun b => (toePoint b).2.2) := by
  obtain ⟨eH, eD, -, ex, ey, et, eo⟩ := wf_arrays f hf
  unfold Borefield.xH Borefield.yH Borefield.zH
  rw [eH, eD, ex, ey, et, eo]
  simp only [List.map_map, zipWith_maps, Function.comp_apply]
  simp only [toe_x, toe_y, toe_z, and_self]

theorem map_getD {α : Type} (l : List α) (p : α → ℝ × ℝ × ℝ) (q : α → ℝ × ℝ × ℝ) :
    ((List.range l.length).map fun i =>
      (((l.map fun a => (p a).1).getD i 0, (l.map fun a => (p a).2.1).getD i 0, (l.map fun a => (p a).2.2).getD i 0),
        ((l.map fun a => (q a).1).getD i 0, (l.map fun a => (q a).2.1).getD i 0, (l.map fun a => (q a).2.2).getD i 0)))
      = l.map fun a => (p a, q a) := by
  apply List.ext_getElem
  · simp
  · intro i h1 h2
    simp only [List.length_map, List.length_range] at h1
    simp [h1]

/-- **C161** (class).  Any consistent field, in particular any field that can be constructed. -/
theorem draw_spec (f : Borefield) (hf : f.WF) (o : ViewOptions) : f.draw o = figureOf f.toBoreholes o := by
  obtain ⟨-, eD, -, ex, ey, -, -⟩ := wf_arrays f hf
  obtain ⟨kx, ky, kz⟩ := bottom_eq f hf
  have hs : f.spaceView = ⟨f.toBoreholes.map headPoint, f.toBoreholes.map fun b => (headPoint b, toePoint b)⟩ := by
    unfold Borefield.spaceView
    rw [kx, ky, kz, ex, ey, eD, ← toBoreholes_length f hf, ← map_getD f.toBoreholes headPoint toePoint]
    simp only [zip_maps]
    rfl
  have ht : f.topView o = ⟨if o.showTilt then f.toBoreholes.map fun b => (ground (headPoint b), ground (toePoint b)) else [],
      f.toBoreholes.map fun b => ground (headPoint b),
      if o.labels then f.toBoreholes.zipIdx.map fun bi => (ground (headPoint bi.1), bi.2) else []⟩ := by
    unfold Borefield.topView
    rw [kx, ky, ex, ey]
    simp only [zip_maps]
    rfl
  unfold Borefield.draw figureOf
  rw [hs, ht]

/-- **C161** (both).  The figure of a list of boreholes is the one of the field made of it, and conversely. -/
theorem draw_same (o : ViewOptions) :
    (∀ f : Borefield, f.WF → drawList f.toBoreholes o = f.draw o) ∧
    (∀ bs : List Borehole, (∀ b ∈ bs, WF b) → ∃ f, Borefield.fromBoreholes bs = some f ∧ f.draw o = drawList bs o) := by
  refine ⟨fun f hf => by rw [drawList_spec, draw_spec f hf], fun bs hb => ?_⟩
  obtain ⟨f, h1, h2, -, h4⟩ := boreholes_roundtrip bs hb
  exact ⟨f, h1, by rw [draw_spec f h2, h4, drawList_spec]⟩

/-- Specification: length of a line in space. -/
def lineLength (l : (ℝ × ℝ × ℝ) × (ℝ × ℝ × ℝ)) : ℝ :=
  √((l.2.1 - l.1.1) ^ 2 + (l.2.2.1 - l.1.2.1) ^ 2 + (l.2.2.2 - l.1.2.2) ^ 2)

/-- **C161** (scale).  In space, each line is as long as its borehole. -/
theorem draw_length (bs : List Borehole) (hH : ∀ b ∈ bs, 0 ≤ b.H) (o : ViewOptions) (v : SpaceView)
    (h : (drawList bs o).space = some v) : v.lines.map lineLength = bs.map (·.H) ∧ v.lines.map (·.1) = v.marks := by
  rw [drawList_spec] at h
  unfold figureOf at h
  dsimp only at h
  split_ifs at h with hv
  cases h
  simp only [List.map_map]
  refine ⟨List.map_congr_left fun b hb => ?_, rfl⟩
  simp only [Function.comp_apply, lineLength]
  rw [head_toe_distance]
  exact Real.sqrt_sq (hH b hb)

/-- Specification: `p` is on the line. -/
def OnLine (l : (ℝ × ℝ × ℝ) × (ℝ × ℝ × ℝ)) (p : ℝ × ℝ × ℝ) : Prop :=
  ∃ s : ℝ, 0 ≤ s ∧ s ≤ 1 ∧ p.1 = l.1.1 + s * (l.2.1 - l.1.1) ∧ p.2.1 = l.1.2.1 + s * (l.2.2.1 - l.1.2.1) ∧
    p.2.2 = l.1.2.2 + s * (l.2.2.2 - l.1.2.2)

theorem axis_onLine (b : Borehole) (s : ℝ) (h0 : 0 ≤ s) (h1 : s ≤ 1) :
    OnLine (headPoint b, toePoint b) (axisPoint b (s * b.H)) := by
  refine ⟨s, h0, h1, ?_, ?_, ?_⟩ <;> simp only [headPoint, toePoint, axisPoint] <;> ring

theorem segs_onLine (b : Borehole) (hb : WF b) (l : List ℝ) (a : ℝ) (ha : 0 ≤ a) (hl : ∀ r ∈ l, 0 ≤ r)
    (hs : a + l.sum ≤ 1) : ∀ s ∈ segsFrom b a l,
      OnLine (headPoint b, toePoint b) (headPoint s) ∧ OnLine (headPoint b, toePoint b) (toePoint s) := by
  induction l generalizing a with
  | nil => intro s hs'; cases hs'
  | cons r l ih =>
    intro s hm
    have hr := hl r (by simp)
    have hl' : ∀ x ∈ l, 0 ≤ x := fun x hx => hl x (by simp [hx])
    have hsum : 0 ≤ l.sum := List.sum_nonneg hl'
    rw [List.sum_cons] at hs
    rw [segsFrom, List.mem_cons] at hm
    rcases hm with rfl | hm
    · rw [segmentAt_head, segmentAt_toe b hb, ← add_mul]
      exact ⟨axis_onLine b a ha (by linarith), axis_onLine b (a + r) (by linarith) (by linarith)⟩
    · exact ih (a + r) (by linarith) hl' (by linarith) s hm

/-- **C161** (segments).  The segments of a borehole, drawn in its place, cover its line: their lines have the same
total length, join one after the other from the head to the toe, and stay on the line of the borehole. -/
theorem draw_segments (b : Borehole) (hb : WF b) (hH : 0 ≤ b.H) (ratios : List ℝ) (hr : ∀ r ∈ ratios, 0 ≤ r)
    (hs : ratios.sum = 1) (o : ViewOptions) (v w : SpaceView) (h : (drawList [b] o).space = some v)
    (h' : (drawList (b.segments ratios) o).space = some w) :
    ∃ l, v.lines = [l] ∧ (w.lines.map lineLength).sum = lineLength l ∧ Chain l.1 (b.segments ratios) l.2 ∧
      ∀ c ∈ w.lines, OnLine l c.1 ∧ OnLine l c.2 := by
  have hseg : ∀ s ∈ b.segments ratios, 0 ≤ s.H := by
    intro s hm
    have := (segments_tile b hb ratios hs).1
    have hm' : s.H ∈ (b.segments ratios).map (·.H) := List.mem_map_of_mem hm
    rw [this] at hm'
    obtain ⟨r, h1, h2⟩ := List.mem_map.mp hm'
    rw [← h2]
    exact mul_nonneg (hr r h1) hH
  have k1 := draw_length [b] (by simpa using hH) o v h
  have k2 := draw_length _ hseg o w h'
  rw [drawList_spec] at h h'
  unfold figureOf at h h'
  dsimp only at h h'
  split_ifs at h h' with hv
  cases h
  cases h'
  refine ⟨(headPoint b, toePoint b), rfl, ?_, (segments_tile b hb ratios hs).2.2.1, ?_⟩
  · rw [k2.1, (segments_tile b hb ratios hs).2.1]
    have := k1.1
    simp only [List.map_cons, List.map_nil, List.cons.injEq, and_true] at this
    exact this.symm
  · intro c hc
    obtain ⟨s, h1, rfl⟩ := List.mem_map.mp hc
    rw [segments_eq] at h1
    exact segs_onLine b hb ratios 0 le_rfl hr (by rw [hs]; norm_num) s h1

/-- Non-vacuity: an inclined borehole of 100 m in three unequal segments. -/
example : WF (Borehole.new 100 4 (3 / 40) 0 0 (1 / 2) 1) ∧ (0 : ℝ) ≤ (Borehole.new 100 4 (3 / 40) 0 0 (1 / 2) 1).H ∧
    (∀ r ∈ [(1 / 4 : ℝ), 1 / 4, 1 / 2], 0 ≤ r) ∧ [(1 / 4 : ℝ), 1 / 4, 1 / 2].sum = 1 ∧
    ((drawList [Borehole.new 100 4 (3 / 40) 0 0 (1 / 2) 1] {}).space).isSome :=
  ⟨new_WF _ _ _ _ _ _ _, by norm_num [Borehole.new], by
    intro r hr
    simp only [List.mem_cons, List.not_mem_nil, or_false] at hr
    rcases hr with rfl | rfl | rfl <;> norm_num, by norm_num, rfl⟩

/-- Non-vacuity: a vertical and an inclined borehole; the second label is 1, at its head. -/
example : (figureOf [Borehole.new 100 4 (3 / 40) 0 0 0 1, Borehole.new 80 2 (3 / 40) 5 6 (1 / 2) 1] {}).top.map (·.labels)
    = some [((0, 0), 0), ((5, 6), 1)] := rfl

end Verif.Bore
