import Verif.Bore.Model

/-!
# Property C12: the segments of a borehole tile the borehole
-/

noncomputable section

namespace Verif.Bore

open Real

/-- Specification: point of space `(x, y, depth)` reached when going down `s` metres along the
axis of a borehole. -/
def axisPoint (b : Borehole) (s : ℝ) : ℝ × ℝ × ℝ :=
  (b.x + s * (sin b.tilt * cos b.orientation), b.y + s * (sin b.tilt * sin b.orientation),
    b.D + s * cos b.tilt)

/-- Specification: head of a borehole. -/
def headPoint (b : Borehole) : ℝ × ℝ × ℝ := (b.x, b.y, b.D)

/-- Specification: toe of a borehole. -/
def toePoint (b : Borehole) : ℝ × ℝ × ℝ := axisPoint b b.H

/-- A borehole as the constructor leaves it: a vertical borehole has orientation zero. -/
def WF (b : Borehole) : Prop := ¬ tilted b.tilt → b.orientation = 0

theorem new_WF (H D rb x y t o : ℝ) : WF (Borehole.new H D rb x y t o) := by
  intro h; simp only [Borehole.new] at *; rw [if_neg h]

theorem new_self (b : Borehole) (h : WF b) :
    Borehole.new b.H b.D b.rb b.x b.y b.tilt b.orientation = b := by
  unfold Borehole.new
  by_cases ht : tilted b.tilt
  · rw [if_pos ht]
  · rw [if_neg ht, ← h ht]

/-- Specification: consecutive segments join, from point `p` to point `q`. -/
def Chain : (ℝ × ℝ × ℝ) → List Borehole → (ℝ × ℝ × ℝ) → Prop
  | p, [], q => p = q
  | p, s :: l, q => headPoint s = p ∧ Chain (toePoint s) l q

/-- The list of segments starting from depth `a * H` along the axis. -/
def segsFrom (b : Borehole) (a : ℝ) : List ℝ → List Borehole
  | [] => []
  | ρ :: l => b.segmentAt (a * b.H) ρ :: segsFrom b (a + ρ) l

theorem cumsum_length (a : ℝ) (l : List ℝ) : (cumsumFrom a l).length = l.length := by
  induction l generalizing a with
  | nil => rfl
  | cons v l ih => simp [cumsumFrom, ih]

theorem segs_aux (b : Borehole) (a : ℝ) (l : List ℝ) :
    List.zipWith b.segmentAt ((a :: cumsumFrom a l).map (· * b.H)).dropLast l = segsFrom b a l := by
  induction l generalizing a with
  | nil => simp [segsFrom]
  | cons v l ih =>
    rw [segsFrom, ← ih (a + v)]
    simp [cumsumFrom]

theorem segments_eq (b : Borehole) (l : List ℝ) : b.segments l = segsFrom b 0 l := by
  rw [← segs_aux]; rfl

theorem segmentAt_fields (b : Borehole) (hb : WF b) (z ρ : ℝ) :
    (b.segmentAt z ρ).tilt = b.tilt ∧ (b.segmentAt z ρ).orientation = b.orientation ∧
      (b.segmentAt z ρ).rb = b.rb ∧ (b.segmentAt z ρ).H = ρ * b.H := by
  refine ⟨rfl, ?_, rfl, rfl⟩
  simp only [Borehole.segmentAt, Borehole.new]
  split_ifs with h
  · rfl
  · exact (hb h).symm

theorem segmentAt_head (b : Borehole) (z ρ : ℝ) : headPoint (b.segmentAt z ρ) = axisPoint b z := by
  simp only [headPoint, axisPoint, Borehole.segmentAt, Borehole.new, mul_assoc]

theorem segmentAt_toe (b : Borehole) (hb : WF b) (z ρ : ℝ) :
    toePoint (b.segmentAt z ρ) = axisPoint b (z + ρ * b.H) := by
  obtain ⟨h1, h2, -, h4⟩ := segmentAt_fields b hb z ρ
  simp only [toePoint, axisPoint, h1, h2, h4]
  simp only [Borehole.segmentAt, Borehole.new, Prod.mk.injEq]
  refine ⟨?_, ?_, ?_⟩ <;> ring

theorem chain_segsFrom (b : Borehole) (hb : WF b) (a : ℝ) (l : List ℝ) :
    Chain (axisPoint b (a * b.H)) (segsFrom b a l) (axisPoint b ((a + l.sum) * b.H)) := by
  induction l generalizing a with
  | nil => simp [segsFrom, Chain]
  | cons ρ l ih =>
    refine ⟨segmentAt_head b _ _, ?_⟩
    rw [segmentAt_toe b hb]
    have := ih (a + ρ)
    rw [show (a + (ρ :: l).sum) * b.H = (a + ρ + l.sum) * b.H by rw [List.sum_cons]; ring,
      show a * b.H + ρ * b.H = (a + ρ) * b.H by ring]
    exact this

theorem segsFrom_map_H (b : Borehole) (a : ℝ) (l : List ℝ) :
    (segsFrom b a l).map (·.H) = l.map (· * b.H) := by
  induction l generalizing a with
  | nil => rfl
  | cons ρ l ih => simp [segsFrom, ih, Borehole.segmentAt, Borehole.new]

/-- **C12.**  For any borehole as created by the constructor and any ratios that sum to one, the
segments have lengths `ratio * H`, they join end to end in space from the head of the borehole
to its toe, and inherit radius, tilt and orientation.  In particular the lengths sum to
`H`. -/
theorem segments_tile (b : Borehole) (hb : WF b) (ratios : List ℝ) (hsum : ratios.sum = 1) :
    (b.segments ratios).map (·.H) = ratios.map (· * b.H) ∧
    ((b.segments ratios).map (·.H)).sum = b.H ∧
    Chain (headPoint b) (b.segments ratios) (toePoint b) ∧
    ∀ s ∈ b.segments ratios, s.rb = b.rb ∧ s.tilt = b.tilt ∧ s.orientation = b.orientation ∧ WF s := by
  rw [segments_eq]
  refine ⟨segsFrom_map_H b 0 ratios, ?_, ?_, ?_⟩
  · rw [segsFrom_map_H, List.sum_map_mul_right, List.map_id', hsum, one_mul]
  · have h := chain_segsFrom b hb 0 ratios
    rw [hsum, zero_mul, zero_add, one_mul] at h
    rw [show headPoint b = axisPoint b 0 by simp [headPoint, axisPoint]]
    exact h
  · have : ∀ (l : List ℝ) (a : ℝ), ∀ s ∈ segsFrom b a l,
        s.rb = b.rb ∧ s.tilt = b.tilt ∧ s.orientation = b.orientation ∧ WF s := by
      intro l
      induction l with
      | nil => intro a s hs; simp [segsFrom] at hs
      | cons ρ l ih =>
        intro a s hs
        rcases List.mem_cons.mp hs with rfl | hs
        · obtain ⟨h1, h2, h3, -⟩ := segmentAt_fields b hb (a * b.H) ρ
          exact ⟨h3, h1, h2, new_WF _ _ _ _ _ _ _⟩
        · exact ih _ _ hs
    exact this ratios 0

/-- **C12** (default ratios).  With `segment_ratios=None` and at least one segment the default
ratios sum to one, so that the previous theorem applies. -/
theorem uniformRatios_sum (n : ℕ) (hn : 1 ≤ n) : (uniformRatios n).sum = 1 := by
  have : (n : ℝ) ≠ 0 := by positivity
  rw [uniformRatios, List.sum_replicate, nsmul_eq_mul, mul_one_div_cancel this]

/-- **C12** (metric).  The distance in space between the head and the toe of a borehole (or of a
segment) is its length. -/
theorem head_toe_distance (b : Borehole) :
    ((toePoint b).1 - (headPoint b).1) ^ 2 + ((toePoint b).2.1 - (headPoint b).2.1) ^ 2
      + ((toePoint b).2.2 - (headPoint b).2.2) ^ 2 = b.H ^ 2 := by
  simp only [toePoint, axisPoint, headPoint]
  have h1 := sin_sq_add_cos_sq b.tilt
  have h2 := sin_sq_add_cos_sq b.orientation
  linear_combination b.H ^ 2 * (sin b.tilt) ^ 2 * h2 + b.H ^ 2 * h1

/-- Specification: depth (along the axis) of the middle of consecutive intervals of length
`ρ * H`, starting from `a * H`. -/
def midsFrom (H : ℝ) (a : ℝ) : List ℝ → List ℝ
  | [] => []
  | ρ :: l => (a * H + (a + ρ) * H) / 2 :: midsFrom H (a + ρ) l

/-- **C12** (midpoints).  `_segment_midpoints` returns the middle of each segment. -/
theorem midpoints_spec (b : Borehole) (ratios : List ℝ) :
    b.midpoints ratios = midsFrom b.H 0 ratios := by
  have : ∀ (l : List ℝ) (a : ℝ), List.zipWith (fun z ρ => z + ρ * b.H / 2)
      ((a :: cumsumFrom a l).map (· * b.H)).dropLast l = midsFrom b.H a l := by
    intro l
    induction l with
    | nil => intro a; simp [midsFrom]
    | cons v l ih =>
      intro a
      rw [midsFrom, ← ih (a + v)]
      simp [cumsumFrom]
      ring
  exact this ratios 0

/-- Non-vacuity: a tilted borehole with unequal ratios. -/
example : let b := Borehole.new 100 4 0.075 1 2 0.3 1.2
    Chain (headPoint b) (b.segments [1 / 4, 1 / 2, 1 / 4]) (toePoint b) ∧
      ((b.segments [1 / 4, 1 / 2, 1 / 4]).map (·.H)) = [25, 50, 25] := by
  intro b
  have h := segments_tile b (new_WF _ _ _ _ _ _ _) [1 / 4, 1 / 2, 1 / 4] (by norm_num)
  refine ⟨h.2.2.1, ?_⟩
  rw [h.1]
  norm_num [b, Borehole.new]

end Verif.Bore
