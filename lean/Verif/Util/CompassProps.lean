import Verif.Util.CompassModel
import Verif.Util.SpellLemmas
import Verif.Bore.Model

/-!
# Directions of the compass (C138)
-/

noncomputable section

namespace Verif.Util

open Real

/-! ### Specification -/

/-- Unit vectors of the four letters, with `x` to the east and `y` to the north. -/
def letter : Char → ℝ × ℝ
  | 'E' => (1, 0)
  | 'N' => (0, 1)
  | 'W' => (-1, 0)
  | 'S' => (0, -1)
  | _ => 0

/-- The unit vector along a vector. -/
def normalize (p : ℝ × ℝ) : ℝ × ℝ := (p.1 / √(p.1 ^ 2 + p.2 ^ 2), p.2 / √(p.1 ^ 2 + p.2 ^ 2))

/-- The direction of a name: half way between that of its first letter and that of the rest. -/
def heading : List Char → ℝ × ℝ
  | [] => 0
  | [c] => letter c
  | c :: l => normalize (letter c + heading l)

/-- Names of directions: a letter; north or south with east or west; one of these after one of its letters. -/
inductive Name : List Char → Prop
  | one {c : Char} : c ∈ ['E', 'N', 'W', 'S'] → Name [c]
  | two {a b : Char} : a ∈ ['N', 'S'] → b ∈ ['E', 'W'] → Name [a, b]
  | three {a b c : Char} : a ∈ ['N', 'S'] → b ∈ ['E', 'W'] → c = a ∨ c = b → Name [c, a, b]

/-- The opposite letter. -/
def opposite : Char → Char
  | 'E' => 'W'
  | 'W' => 'E'
  | 'N' => 'S'
  | 'S' => 'N'
  | c => c

/-! ### Proofs -/

theorem mem_accepted {s : List Char} : s ∈ acceptedInputs ↔ Name s := by
  constructor
  · intro h
    simp only [acceptedInputs, List.mem_cons, List.not_mem_nil, or_false] at h
    rcases h with rfl | rfl | rfl | rfl | rfl | rfl | rfl | rfl | rfl | rfl | rfl | rfl | rfl | rfl | rfl | rfl
    · exact .one (by simp)
    · exact .three (by simp) (by simp) (by simp)
    · exact .two (by simp) (by simp)
    · exact .three (by simp) (by simp) (by simp)
    · exact .one (by simp)
    · exact .three (by simp) (by simp) (by simp)
    · exact .two (by simp) (by simp)
    · exact .three (by simp) (by simp) (by simp)
    · exact .one (by simp)
    · exact .three (by simp) (by simp) (by simp)
    · exact .two (by simp) (by simp)
    · exact .three (by simp) (by simp) (by simp)
    · exact .one (by simp)
    · exact .three (by simp) (by simp) (by simp)
    · exact .two (by simp) (by simp)
    · exact .three (by simp) (by simp) (by simp)
  · intro h
    cases h with
    | one h =>
      simp at h
      rcases h with rfl | rfl | rfl | rfl <;> simp [acceptedInputs]
    | two ha hb =>
      simp at ha hb
      rcases ha with rfl | rfl <;> rcases hb with rfl | rfl <;> simp [acceptedInputs]
    | three ha hb hc =>
      simp at ha hb
      rcases ha with rfl | rfl <;> rcases hb with rfl | rfl <;> rcases hc with rfl | rfl <;> simp [acceptedInputs]

/-- The direction half way between two angles less than a half turn apart. -/
theorem normalize_bisect {a b : ℝ} (h : 0 < cos ((a - b) / 2)) : normalize ((cos a, sin a) + (cos b, sin b)) = (cos ((a + b) / 2), sin ((a + b) / 2)) := by
  have h1 : cos a + cos b = 2 * cos ((a - b) / 2) * cos ((a + b) / 2) := by rw [cos_add_cos]; ring
  have h2 : sin a + sin b = 2 * cos ((a - b) / 2) * sin ((a + b) / 2) := by rw [sin_add_sin]; ring
  have h3 : √((2 * cos ((a - b) / 2) * cos ((a + b) / 2)) ^ 2 + (2 * cos ((a - b) / 2) * sin ((a + b) / 2)) ^ 2) = 2 * cos ((a - b) / 2) := by
    rw [show (2 * cos ((a - b) / 2) * cos ((a + b) / 2)) ^ 2 + (2 * cos ((a - b) / 2) * sin ((a + b) / 2)) ^ 2
      = (2 * cos ((a - b) / 2)) ^ 2 * (sin ((a + b) / 2) ^ 2 + cos ((a + b) / 2) ^ 2) from by ring, sin_sq_add_cos_sq, mul_one]
    exact sqrt_sq (by positivity)
  have h4 : 2 * cos ((a - b) / 2) ≠ 0 := by positivity
  unfold normalize
  simp only [Prod.fst_add, Prod.snd_add, h1, h2, h3]
  rw [mul_div_cancel_left₀ _ h4, mul_div_cancel_left₀ _ h4]

/-- The letters at their angles; the east is at zero and at a full turn. -/
theorem letter_angle : letter 'E' = (cos 0, sin 0) ∧ letter 'E' = (cos (2 * π), sin (2 * π)) ∧ letter 'N' = (cos (π / 2), sin (π / 2)) ∧ letter 'W' = (cos π, sin π) ∧
    letter 'S' = (cos (3 * π / 2), sin (3 * π / 2)) := by
  have hc : cos (3 * π / 2) = 0 := by rw [show 3 * π / 2 = π / 2 + π from by ring, cos_add_pi, cos_pi_div_two, neg_zero]
  have hs : sin (3 * π / 2) = -1 := by rw [show 3 * π / 2 = π / 2 + π from by ring, sin_add_pi, sin_pi_div_two]
  refine ⟨?_, ?_, ?_, ?_, ?_⟩ <;> simp [letter, hc, hs]

theorem cos_half_pos {a b : ℝ} (h : |a - b| < π) : 0 < cos ((a - b) / 2) := by
  obtain ⟨h1, h2⟩ := abs_lt.mp h
  exact cos_pos_of_mem_Ioo ⟨by linarith, by linarith⟩

/-- The heading of a name of more than one letter. -/
theorem heading_cons {c : Char} {l : List Char} (hl : l ≠ []) {a b t : ℝ} (ha : letter c = (cos a, sin a)) (hb : heading l = (cos b, sin b)) (hab : |a - b| < π)
    (ht : t = (a + b) / 2) : heading (c :: l) = (cos t, sin t) := by
  cases l with
  | nil => exact absurd rfl hl
  | cons d l =>
    rw [heading, ha, hb, normalize_bisect (cos_half_pos hab), ht]
    simp

/-- The angle returned for the `i`-th name. -/
theorem compass_heading : ∀ p ∈ compass, heading p.1 = (cos p.2, sin p.2) ∧ 0 ≤ p.2 ∧ p.2 < 2 * π := by
  obtain ⟨hE, hE', hN, hW, hS⟩ := letter_angle
  have hpi := pi_pos
  have abs1 : ∀ x : ℝ, -π < x → x < π → |x| < π := fun x h1 h2 => abs_lt.mpr ⟨h1, h2⟩
  have hNE : heading ['N', 'E'] = (cos (π / 4), sin (π / 4)) := heading_cons (by simp) hN hE (abs1 _ (by linarith) (by linarith)) (by ring)
  have hNW : heading ['N', 'W'] = (cos (3 * π / 4), sin (3 * π / 4)) := heading_cons (by simp) hN hW (abs1 _ (by linarith) (by linarith)) (by ring)
  have hSW : heading ['S', 'W'] = (cos (5 * π / 4), sin (5 * π / 4)) := heading_cons (by simp) hS hW (abs1 _ (by linarith) (by linarith)) (by ring)
  have hSE : heading ['S', 'E'] = (cos (7 * π / 4), sin (7 * π / 4)) := heading_cons (by simp) hS hE' (abs1 _ (by linarith) (by linarith)) (by ring)
  intro p hp
  simp only [compass, acceptedInputs, List.zipIdx_cons, List.zipIdx_nil, List.map_cons, List.map_nil, List.mem_cons, List.not_mem_nil, or_false] at hp
  rcases hp with rfl | rfl | rfl | rfl | rfl | rfl | rfl | rfl | rfl | rfl | rfl | rfl | rfl | rfl | rfl | rfl <;> refine ⟨?_, by positivity, by push_cast; linarith⟩
  · exact hE.trans (by norm_num)
  · exact heading_cons (by simp) hE hNE (abs1 _ (by linarith) (by linarith)) (by push_cast; ring)
  · exact hNE.trans (by push_cast; ring_nf)
  · exact heading_cons (by simp) hN hNE (abs1 _ (by linarith) (by linarith)) (by push_cast; ring)
  · exact hN.trans (by push_cast; ring_nf)
  · exact heading_cons (by simp) hN hNW (abs1 _ (by linarith) (by linarith)) (by push_cast; ring)
  · exact hNW.trans (by push_cast; ring_nf)
  · exact heading_cons (by simp) hW hNW (abs1 _ (by linarith) (by linarith)) (by push_cast; ring)
  · exact hW.trans (by push_cast; ring_nf)
  · exact heading_cons (by simp) hW hSW (abs1 _ (by linarith) (by linarith)) (by push_cast; ring)
  · exact hSW.trans (by push_cast; ring_nf)
  · exact heading_cons (by simp) hS hSW (abs1 _ (by linarith) (by linarith)) (by push_cast; ring)
  · exact hS.trans (by push_cast; ring_nf)
  · exact heading_cons (by simp) hS hSE (abs1 _ (by linarith) (by linarith)) (by push_cast; ring)
  · exact hSE.trans (by push_cast; ring_nf)
  · exact heading_cons (by simp) hE' hSE (abs1 _ (by linarith) (by linarith)) (by push_cast; ring)

theorem lookup_mem {α β : Type*} [BEq α] [LawfulBEq α] {a : α} {b : β} {l : List (α × β)} (h : List.lookup a l = some b) : (a, b) ∈ l := by
  induction l with
  | nil => simp at h
  | cons p l ih =>
    obtain ⟨x, y⟩ := p
    rw [List.lookup_cons] at h
    by_cases hx : a = x
    · subst hx
      simp at h
      simp [h]
    · rw [beq_eq_false_iff_ne.mpr hx] at h
      exact List.mem_cons_of_mem _ (ih h)

theorem lookup_some {α β : Type*} [BEq α] [LawfulBEq α] {a : α} {l : List (α × β)} (h : a ∈ l.map Prod.fst) : ∃ b, List.lookup a l = some b := by
  induction l with
  | nil => simp at h
  | cons p l ih =>
    obtain ⟨x, y⟩ := p
    rw [List.lookup_cons]
    by_cases hx : a = x
    · subst hx
      exact ⟨y, by simp⟩
    · rw [beq_eq_false_iff_ne.mpr hx]
      simp only [List.map_cons, List.mem_cons] at h
      exact ih (h.resolve_left hx)

theorem compass_names : compass.map Prod.fst = acceptedInputs := by
  unfold compass
  rw [List.map_map]
  exact List.zipIdx_map_fst 0 acceptedInputs

/-- `cardinal_point` returns for the names of directions, in capitals or not, and raises for all other strings. -/
theorem cardinal_returns (s : List Char) : (∃ t, cardinalPoint s = some t) ↔ Name (upper s) := by
  unfold cardinalPoint
  rw [← mem_accepted]
  constructor
  · rintro ⟨t, h⟩
    split_ifs at h with hm
    exact hm
  · intro h
    rw [if_pos h]
    exact lookup_some (by rw [compass_names]; exact h)

/-- The angle is that of the direction of the name, from the east towards the north, in `[0, 2π)`. -/
theorem cardinal_heading {s : List Char} {t : ℝ} (h : cardinalPoint s = some t) : heading (upper s) = (cos t, sin t) ∧ 0 ≤ t ∧ t < 2 * π := by
  unfold cardinalPoint at h
  split_ifs at h
  exact compass_heading _ (lookup_mem h)

theorem accepted_capitals : ∀ p ∈ acceptedInputs, Capitals p := by
  unfold Capitals
  decide

/-- The same with the spelling of the names: `cardinal_point` returns for the names of directions, each letter a capital or a small one, and only for them; the angle is that of the name. -/
theorem cardinal_spelled (s : List Char) :
    ((∃ t, cardinalPoint s = some t) ↔ ∃ N, Name N ∧ Spells s N) ∧ (∀ N t, Name N → Spells s N → cardinalPoint s = some t → heading N = (cos t, sin t)) := by
  have hN : ∀ N, Name N → (upper s = N ↔ Spells s N) := fun N hN => spells_iff (accepted_capitals N (mem_accepted.mpr hN))
  refine ⟨⟨fun h => ?_, fun ⟨N, h1, h2⟩ => ?_⟩, fun N t h1 h2 h => ?_⟩
  · have := (cardinal_returns s).mp h
    exact ⟨upper s, this, (hN _ this).mp rfl⟩
  · rw [cardinal_returns, (hN N h1).mpr h2]
    exact h1
  · rw [← (hN N h1).mpr h2]
    exact (cardinal_heading h).1

/-- `cardinal_point('nE')`. -/
example : ∃ t, cardinalPoint ['n', 'E'] = some t ∧ heading ['N', 'E'] = (cos t, sin t) := by
  have hn : Name ['N', 'E'] := mem_accepted.mp (by simp [acceptedInputs])
  have hs : Spells ['n', 'E'] ['N', 'E'] := by unfold Spells; decide
  obtain ⟨t, ht⟩ := (cardinal_spelled ['n', 'E']).1.mpr ⟨_, hn, hs⟩
  exact ⟨t, ht, (cardinal_spelled _).2 _ t hn hs ht⟩

theorem normalize_neg (p : ℝ × ℝ) : normalize (-p) = -normalize p := by
  simp [normalize, neg_div]

theorem letter_opposite (c : Char) : letter (opposite c) = -letter c := by
  by_cases h1 : c = 'E'
  · subst h1; simp [letter, opposite]
  · by_cases h2 : c = 'W'
    · subst h2; simp [letter, opposite]
    · by_cases h3 : c = 'N'
      · subst h3; simp [letter, opposite]
      · by_cases h4 : c = 'S'
        · subst h4; simp [letter, opposite]
        · have ho : opposite c = c := by unfold opposite; split <;> simp_all
          have hl : letter c = 0 := by unfold letter; split <;> simp_all
          rw [ho, hl, neg_zero]

theorem heading_opposite (l : List Char) : heading (l.map opposite) = -heading l := by
  induction l with
  | nil => simp [heading]
  | cons c l ih =>
    cases l with
    | nil => exact letter_opposite c
    | cons d l =>
      have e : heading ((c :: d :: l).map opposite) = normalize (letter (opposite c) + heading ((d :: l).map opposite)) := rfl
      rw [e, ih, letter_opposite, ← neg_add, normalize_neg]
      rfl

theorem name_opposite {l : List Char} (h : Name l) : Name (l.map opposite) := by
  cases h with
  | one h =>
    simp at h
    rcases h with rfl | rfl | rfl | rfl <;> exact .one (by simp [opposite])
  | two ha hb =>
    simp at ha hb
    rcases ha with rfl | rfl <;> rcases hb with rfl | rfl <;> exact .two (by simp [opposite]) (by simp [opposite])
  | three ha hb hc =>
    refine .three ?_ ?_ ?_
    · simp at ha; rcases ha with rfl | rfl <;> simp [opposite]
    · simp at hb; rcases hb with rfl | rfl <;> simp [opposite]
    · rcases hc with rfl | rfl <;> simp

/-- Opposite names are a half turn apart. -/
theorem cardinal_opposite {s s' : List Char} (h : upper s' = (upper s).map opposite) {t : ℝ} (ht : cardinalPoint s = some t) :
    ∃ t', cardinalPoint s' = some t' ∧ (t' = t + π ∨ t' = t - π) := by
  obtain ⟨t', ht'⟩ := (cardinal_returns s').mpr (by rw [h]; exact name_opposite ((cardinal_returns s).mp ⟨t, ht⟩))
  refine ⟨t', ht', ?_⟩
  obtain ⟨h1, h2, h3⟩ := cardinal_heading ht
  obtain ⟨h1', h2', h3'⟩ := cardinal_heading ht'
  rw [h, heading_opposite, h1] at h1'
  obtain ⟨e1, e2⟩ := Prod.mk.inj h1'
  have hcos : cos (t' - t) = -1 := by
    rw [cos_sub, ← e1, ← e2]
    have := sin_sq_add_cos_sq t
    nlinarith
  have hpi := pi_pos
  have h0 : cos (t' - t + π) = 1 := by rw [cos_add_pi, hcos, neg_neg]
  obtain ⟨k, hk⟩ := (cos_eq_one_iff _).mp h0
  have hk1 : (-1 : ℝ) < k := by nlinarith
  have hk2 : (k : ℝ) < 2 := by nlinarith
  have : k = 0 ∨ k = 1 := by
    have : -1 < k := by exact_mod_cast hk1
    have : k < 2 := by exact_mod_cast hk2
    omega
  rcases this with rfl | rfl
  · right; push_cast at hk; linarith
  · left; push_cast at hk; linarith

/-- A tilted borehole whose orientation is the angle of a name goes in the direction of the name: the head of each of its segments is displaced along it by the
horizontal part of its depth. -/
theorem borehole_goes {s : List Char} {t : ℝ} (h : cardinalPoint s = some t) (H D rb x y : ℝ) {tilt : ℝ} (ht : Bore.tilted tilt) (z ρ : ℝ) :
    ((((Bore.Borehole.new H D rb x y tilt t).segmentAt z ρ).x, ((Bore.Borehole.new H D rb x y tilt t).segmentAt z ρ).y) : ℝ × ℝ)
      = (x, y) + (z * sin tilt) • heading (upper s) := by
  rw [(cardinal_heading h).1]
  have ho : (Bore.Borehole.new H D rb x y tilt t).orientation = t := if_pos ht
  unfold Bore.Borehole.segmentAt
  rw [ho]
  rfl

/-! ### Cases -/

example : Name (upper ['n', 'n', 'E']) := .three (by simp) (by simp) (by simp)

example : ∃ t, cardinalPoint ['s', 'W'] = some t ∧ heading ['S', 'W'] = (cos t, sin t) := by
  obtain ⟨t, ht⟩ := (cardinal_returns ['s', 'W']).mpr (.two (by simp) (by simp))
  exact ⟨t, ht, (cardinal_heading ht).1⟩

example : ¬ ∃ t, cardinalPoint ['E', 'N'] = some t := by
  rw [cardinal_returns, ← mem_accepted]
  simp [acceptedInputs, upper]

example : Bore.tilted 0.1 := by unfold Bore.tilted; norm_num

end Verif.Util
