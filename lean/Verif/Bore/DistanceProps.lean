import Verif.Bore.Model

/-!
# Property C59: distance between boreholes
-/

noncomputable section

namespace Verif.Bore

/-- **C59.**  The distance is never below the radius of the first borehole; further apart than this
radius it is the Euclidean distance of the positions; closer it is the radius. -/
theorem distance_spec (a b : Borehole) :
    a.rb ≤ a.distance b ∧
    (∀ d, 0 ≤ d → d ^ 2 = (a.x - b.x) ^ 2 + (a.y - b.y) ^ 2 →
      (a.rb ≤ d → a.distance b = d) ∧ (d ≤ a.rb → a.distance b = a.rb)) := by
  refine ⟨le_max_left _ _, ?_⟩
  intro d hd he
  have hs : Real.sqrt ((a.x - b.x) ^ 2 + (a.y - b.y) ^ 2) = d := by
    rw [← he]; exact Real.sqrt_sq hd
  unfold Borehole.distance
  rw [hs]
  exact ⟨max_eq_right, max_eq_left⟩

/-- **C59** (self).  The distance of a borehole to itself is its radius. -/
theorem distance_self (a : Borehole) (h : 0 ≤ a.rb) : a.distance a = a.rb :=
  ((distance_spec a a).2 0 le_rfl (by ring)).2 h

/-- **C59** (symmetry).  For boreholes of the same radius the distance is symmetric. -/
theorem distance_symm (a b : Borehole) (h : a.rb = b.rb) : a.distance b = b.distance a := by
  unfold Borehole.distance
  rw [h]
  congr 2
  ring

/-- **C59** (no symmetry otherwise).  Boreholes of radii 1 and 2 at the same place. -/
theorem distance_not_symm : ∃ a b : Borehole, a.distance b = 1 ∧ b.distance a = 2 := by
  refine ⟨⟨100, 4, 1, 0, 0, 0, 0⟩, ⟨100, 4, 2, 0, 0, 0, 0⟩, ?_, ?_⟩
  · exact ((distance_spec _ _).2 0 le_rfl (by simp)).2 (by norm_num)
  · exact ((distance_spec _ _).2 0 le_rfl (by simp)).2 (by norm_num)

/-- Example: boreholes 3 m and 4 m apart along the axes. -/
example : (⟨100, 4, 1, 0, 0, 0, 0⟩ : Borehole).distance ⟨100, 4, 1, 3, 4, 0, 0⟩ = 5 :=
  ((distance_spec _ _).2 5 (by norm_num) (by norm_num)).1 (by norm_num)

end Verif.Bore
