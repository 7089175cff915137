import Verif.Bore.BuildLemmas
import Mathlib.RingTheory.RootsOfUnity.Complex
import Mathlib.Analysis.Real.Pi.Bounds

/-!
# Properties C17, C18 and C56: borefield builders
-/

noncomputable section

namespace Verif.Bore

open ArrayLike

/-- Specification: position of a borehole. -/
def posn (b : Borehole) : ℝ × ℝ := (b.x, b.y)

/-- Specification: the field has exactly one borehole at each grid position `(i B1, j B2)` with
`i < N1`, `j < N2` selected by `P`, and no other borehole; all have the given length,
buried depth and radius. -/
structure Covers (f : Borefield) (N1 N2 : ℕ) (B1 B2 H D rb : ℝ) (P : ℕ → ℕ → Prop) : Prop where
  nodup : (f.toBoreholes.map posn).Nodup
  mem : ∀ p, p ∈ f.toBoreholes.map posn ↔
    ∃ i j : ℕ, i < N1 ∧ j < N2 ∧ P i j ∧ p = ((i : ℝ) * B1, (j : ℝ) * B2)
  dims : ∀ b ∈ f.toBoreholes, b.H = H ∧ b.D = D ∧ b.rb = rb

theorem posn_new (H D rb tilt : ℝ) (o p : ℝ × ℝ) : posn (newBorehole H D rb tilt o p) = p := rfl

theorem covers_of_idx (H D rb tilt : ℝ) (o : ℝ × ℝ) (x y : List ℝ) (N1 N2 : ℕ) (B1 B2 : ℝ)
    (h1 : B1 ≠ 0) (h2 : B2 ≠ 0) (idx : List (ℕ × ℕ)) (P : ℕ → ℕ → Prop)
    (hzip : x.zip y = idx.map (emb B1 B2)) (hlen : x.length = y.length) (hnd : idx.Nodup)
    (hmem : ∀ p, p ∈ idx ↔ p.1 < N1 ∧ p.2 < N2 ∧ P p.1 p.2) :
    ∃ f, finish H D rb tilt o x y = some f ∧ f.WF ∧ Covers f N1 N2 B1 B2 H D rb P ∧
      f.nBoreholes = idx.length := by
  obtain ⟨f, hf, hwf, hl⟩ := finish_spec H D rb tilt o x y hlen
  have hpos : f.toBoreholes.map posn = idx.map (emb B1 B2) := by
    rw [hl, List.map_map, hzip]
    conv_rhs => rw [← List.map_id (idx.map (emb B1 B2))]
    apply List.map_congr_left
    intro p _
    rfl
  refine ⟨f, hf, hwf, ⟨?_, ?_, ?_⟩, ?_⟩
  · rw [hpos]; exact hnd.map (emb_injective B1 B2 h1 h2)
  · intro p
    rw [hpos, List.mem_map]
    constructor
    · rintro ⟨⟨i, j⟩, hp, rfl⟩
      obtain ⟨a, b, c⟩ := (hmem _).mp hp
      exact ⟨i, j, a, b, c, rfl⟩
    · rintro ⟨i, j, a, b, c, rfl⟩
      exact ⟨(i, j), (hmem _).mpr ⟨a, b, c⟩, rfl⟩
  · intro b hb
    rw [hl, List.mem_map] at hb
    obtain ⟨p, -, rfl⟩ := hb
    exact ⟨rfl, rfl, rfl⟩
  · rw [← toBoreholes_length f hwf, ← List.length_map (f := posn), hpos, List.length_map]

variable (N1 N2 : ℕ) (B1 B2 H D rb tilt : ℝ) (origin : Option (ℝ × ℝ))

/-- **C17** (rectangle).  `N1 × N2` boreholes, one at each grid point. -/
theorem rectangle_positions (hB1 : B1 ≠ 0) (hB2 : B2 ≠ 0) :
    ∃ f, rectangleField N1 N2 B1 B2 H D rb tilt origin = some f ∧ f.WF ∧
      Covers f N1 N2 B1 B2 H D rb (fun _ _ => True) ∧ f.nBoreholes = N1 * N2 := by
  obtain ⟨f, a, b, c, d⟩ := covers_of_idx H D rb tilt (originOr origin (centre N1 N2 B1 B2)) _ _ N1 N2 B1 B2
    hB1 hB2 (rectIdx N1 N2) (fun _ _ => True) (rect_zip N1 N2 B1 B2).1 (rect_zip N1 N2 B1 B2).2
    (rectIdx_nodup N1 N2) (fun p => by rw [rectIdx_mem]; tauto)
  exact ⟨f, a, b, c, by rw [d, rectIdx_length]⟩

theorem lField_pos (h2 : 1 ≤ N2) : lField N1 N2 B1 B2 H D rb tilt origin
    = finish H D rb tilt (originOr origin (centre N1 N2 B1 B2)) (lX N1 N2 B1) (lY N1 N2 B2) := by
  rw [lField, if_neg (by omega)]

theorem uField_pos (h2 : 1 ≤ N2) : uField N1 N2 B1 B2 H D rb tilt origin
    = finish H D rb tilt (originOr origin (centre N1 N2 B1 B2)) (uX N1 N2 B1) (uY N1 N2 B2) := by
  rw [uField, if_neg (by omega)]

/-- The two builders that raise for an empty direction. -/
theorem l_u_empty : lField N1 0 B1 B2 H D rb tilt origin = none ∧ uField N1 0 B1 B2 H D rb tilt origin = none := ⟨rfl, rfl⟩

/-- **C17** (L shape).  One borehole at each grid point of the first row or first column. -/
theorem l_positions (h1 : 1 ≤ N1) (h2 : 1 ≤ N2) (hB1 : B1 ≠ 0) (hB2 : B2 ≠ 0) :
    ∃ f, lField N1 N2 B1 B2 H D rb tilt origin = some f ∧ f.WF ∧
      Covers f N1 N2 B1 B2 H D rb (fun i j => i = 0 ∨ j = 0) ∧ f.nBoreholes = N1 + N2 - 1 := by
  obtain ⟨f, a, b, c, d⟩ := covers_of_idx H D rb tilt (originOr origin (centre N1 N2 B1 B2)) _ _ N1 N2 B1 B2
    hB1 hB2 (lIdx N1 N2) (fun i j => i = 0 ∨ j = 0) (l_zip N1 N2 B1 B2).1 (l_zip N1 N2 B1 B2).2
    (lIdx_nodup N1 N2) (lIdx_mem N1 N2 h1 h2)
  exact ⟨f, by rw [lField_pos _ _ _ _ _ _ _ _ _ h2]; exact a, b, c, by rw [d, lIdx]; simp; omega⟩

theorem sidesIdx_length (k : ℕ) : (sidesIdx N1 k).length = k * min N1 2 := by
  simp [sidesIdx, List.length_flatMap]

/-- **C17** (U shape).  One borehole at each grid point of the first row, first column or last
column. -/
theorem u_positions (h1 : 1 ≤ N1) (h2 : 1 ≤ N2) (hB1 : B1 ≠ 0) (hB2 : B2 ≠ 0) :
    ∃ f, uField N1 N2 B1 B2 H D rb tilt origin = some f ∧ f.WF ∧
      Covers f N1 N2 B1 B2 H D rb (fun i j => j = 0 ∨ i = 0 ∨ i = N1 - 1) ∧
      f.nBoreholes = N1 + (N2 - 1) * min N1 2 := by
  obtain ⟨f, a, b, c, d⟩ := covers_of_idx H D rb tilt (originOr origin (centre N1 N2 B1 B2)) _ _ N1 N2 B1 B2
    hB1 hB2 (uIdx N1 N2) (fun i j => j = 0 ∨ i = 0 ∨ i = N1 - 1) (u_zip N1 N2 h1 B1 B2).1
    (u_zip N1 N2 h1 B1 B2).2 (uIdx_nodup N1 N2 h1) (uIdx_mem N1 N2 h1 h2)
  exact ⟨f, by rw [uField_pos _ _ _ _ _ _ _ _ _ h2]; exact a, b, c, by rw [d, uIdx, List.length_append, sidesIdx_length]; simp⟩

/-- **C17** (box shape).  One borehole at each grid point of the perimeter. -/
theorem box_positions (h1 : 1 ≤ N1) (h2 : 1 ≤ N2) (hB1 : B1 ≠ 0) (hB2 : B2 ≠ 0) :
    ∃ f, boxField N1 N2 B1 B2 H D rb tilt origin = some f ∧ f.WF ∧
      Covers f N1 N2 B1 B2 H D rb (fun i j => j = 0 ∨ j = N2 - 1 ∨ i = 0 ∨ i = N1 - 1) ∧
      f.nBoreholes = N1 + (N2 - 2) * min N1 2 + if N2 > 1 then N1 else 0 := by
  obtain ⟨f, a, b, c, d⟩ := covers_of_idx H D rb tilt (originOr origin (centre N1 N2 B1 B2)) _ _ N1 N2 B1 B2
    hB1 hB2 (boxIdx N1 N2) (fun i j => j = 0 ∨ j = N2 - 1 ∨ i = 0 ∨ i = N1 - 1)
    (box_zip N1 N2 h1 h2 B1 B2).1
    (box_zip N1 N2 h1 h2 B1 B2).2 (boxIdx_nodup N1 N2 h1 h2) (boxIdx_mem N1 N2 h1 h2)
  exact ⟨f, a, b, c, by
    rw [d, boxIdx, List.length_append, List.length_append, sidesIdx_length]; simp [nTop]⟩

/-! ### Staggered rectangles -/

/-- Grid points of the staggered rectangle. -/
def stagIdx (last : Bool) : List (ℕ × ℕ) :=
  (List.range N2).flatMap fun j => ((List.range N1).filter fun i => stagKeep N1 last i j).map fun i => (i, j)

/-- Specification: position of the staggered grid point `(i, j)`: odd rows are shifted by half a
spacing. -/
def stagPos (i j : ℕ) : ℝ × ℝ := (((i : ℝ) + if Odd j then 1 / 2 else 0) * B1, (j : ℝ) * B2)

theorem shift_odd (j : ℕ) : shift j = if Odd j then 1 / 2 else 0 := by
  simp only [shift, Nat.odd_iff]

theorem stag_zip (last : Bool) :
    (stagX N1 N2 last B1).zip (stagY N1 N2 last B2)
        = (stagIdx N1 N2 last).map (fun p => stagPos B1 B2 p.1 p.2) ∧
      (stagX N1 N2 last B1).length = (stagY N1 N2 last B2).length := by
  constructor
  · rw [stagX, stagY, zip_scale, zip_flatMap _ _ _ (by simp), stagIdx]
    simp only [List.map_flatMap, List.map_map]
    congr 1
    funext j
    rw [List.zip_map', List.map_map]
    simp only [Function.comp_def, stagPos, shift_odd]
  · rw [stagX, stagY, scale, scale, List.length_map, List.length_map]
    exact length_flatMap_eq _ _ _ (by simp)

theorem stagPos_inj (hB1 : B1 ≠ 0) (hB2 : B2 ≠ 0) (p q : ℕ × ℕ)
    (h : stagPos B1 B2 p.1 p.2 = stagPos B1 B2 q.1 q.2) : p = q := by
  simp only [stagPos, Prod.mk.injEq] at h
  have e2 : p.2 = q.2 := by exact_mod_cast mul_right_cancel₀ hB2 h.2
  have e1 := mul_right_cancel₀ hB1 h.1
  rw [e2] at e1
  have e1' : p.1 = q.1 := by exact_mod_cast add_right_cancel e1
  exact Prod.ext e1' e2

/-- Specification: the staggered grid points that hold a borehole.  The last borehole of odd
rows is optional. -/
def StagPoint (last : Bool) (i j : ℕ) : Prop := i < N1 ∧ j < N2 ∧ (Odd j ∧ last = false → i + 1 < N1)

/-- **C17** (staggered rectangle).  One borehole at each selected staggered grid point. -/
theorem staggered_positions (last : Bool) (h1 : N1 ≠ 1) (h2 : N2 ≠ 1) (hB1 : B1 ≠ 0) (hB2 : B2 ≠ 0) :
    ∃ f, staggeredField N1 N2 B1 B2 H D rb last tilt origin = some f ∧ f.WF ∧
      (f.toBoreholes.map posn).Nodup ∧
      (∀ p, p ∈ f.toBoreholes.map posn ↔ ∃ i j, StagPoint N1 N2 last i j ∧ p = stagPos B1 B2 i j) ∧
      (∀ b ∈ f.toBoreholes, b.H = H ∧ b.D = D ∧ b.rb = rb) := by
  obtain ⟨f, hf, hwf, hl⟩ := finish_spec H D rb tilt (originOr origin (stagCentre N1 N2 last B1 B2)) _ _
    (stag_zip N1 N2 B1 B2 last).2
  have hpos : f.toBoreholes.map posn = (stagIdx N1 N2 last).map (fun p => stagPos B1 B2 p.1 p.2) := by
    rw [hl, List.map_map, (stag_zip N1 N2 B1 B2 last).1]
    conv_rhs => rw [← List.map_id ((stagIdx N1 N2 last).map (fun p => stagPos B1 B2 p.1 p.2))]
    apply List.map_congr_left
    intro p _
    rfl
  refine ⟨f, ?_, hwf, ?_, ?_, ?_⟩
  · rw [staggeredField, if_neg (by tauto)]; exact hf
  · rw [hpos]
    apply List.Nodup.map (fun p q h => stagPos_inj B1 B2 hB1 hB2 p q h)
    apply flatMap_pair_nodup _ List.nodup_range _ (·.2)
    · intro j _ a ha
      obtain ⟨i, -, rfl⟩ := List.mem_map.mp ha
      rfl
    · intro j _
      exact List.Nodup.map (fun a b h => (Prod.mk.inj h).1) (List.nodup_range.filter _)
  · intro p
    rw [hpos]
    simp only [stagIdx, List.mem_map, List.mem_flatMap, List.mem_range, List.mem_filter, stagKeep,
      StagPoint, Nat.odd_iff]
    constructor
    · rintro ⟨⟨i, j⟩, ⟨j', hj, i', ⟨hi, hk⟩, heq⟩, rfl⟩
      simp only [Prod.mk.injEq] at heq
      obtain ⟨rfl, rfl⟩ := heq
      refine ⟨i', j', ⟨hi, hj, ?_⟩, rfl⟩
      rintro ⟨h3, h4⟩
      simp only [Bool.or_eq_true, decide_eq_true_eq, h4, Bool.false_eq_true, or_false] at hk
      omega
    · rintro ⟨i, j, ⟨hi, hj, hk⟩, rfl⟩
      refine ⟨(i, j), ⟨j, hj, i, ⟨hi, ?_⟩, rfl⟩, rfl⟩
      simp only [Bool.or_eq_true, decide_eq_true_eq]
      cases last with
      | true => simp
      | false =>
        simp only [and_true] at hk
        by_cases h0 : j % 2 = 0
        · right; exact h0
        · left; left; exact hk (by omega)
  · intro b hb
    rw [hl, List.mem_map] at hb
    obtain ⟨p, -, rfl⟩ := hb
    exact ⟨rfl, rfl, rfl⟩

/-- **C17** (degenerate staggered rectangle).  A single row or column is the plain rectangle. -/
theorem staggered_degenerate (last : Bool) (h : N1 = 1 ∨ N2 = 1) :
    staggeredField N1 N2 B1 B2 H D rb last tilt origin = rectangleField N1 N2 B1 B2 H D rb tilt origin := by
  rw [staggeredField, if_pos h]

theorem stag_spacing (B : ℝ) (i j i' j' : ℕ) (hne : (i, j) ≠ (i', j')) :
    B ^ 2 ≤ ((stagPos B (Real.sqrt 3 / 2 * B) i j).1 - (stagPos B (Real.sqrt 3 / 2 * B) i' j').1) ^ 2
      + ((stagPos B (Real.sqrt 3 / 2 * B) i j).2 - (stagPos B (Real.sqrt 3 / 2 * B) i' j').2) ^ 2 := by
  have h3 : Real.sqrt 3 ^ 2 = 3 := Real.sq_sqrt (by norm_num)
  -- with integers: the squared distance is `B^2 / 4 * (u^2 + 3 v^2)`
  obtain ⟨u, hu⟩ : ∃ u : ℤ, u = 2 * ((i : ℤ) - i') + ((if Odd j then 1 else 0) - if Odd j' then 1 else 0) := ⟨_, rfl⟩
  obtain ⟨v, hv⟩ : ∃ v : ℤ, v = (j : ℤ) - j' := ⟨_, rfl⟩
  have huR : (u : ℝ) = 2 * ((i : ℝ) - i') + ((if Odd j then 1 else 0) - if Odd j' then 1 else 0) := by
    rw [hu]; push_cast; rfl
  have hvR : (v : ℝ) = (j : ℝ) - j' := by rw [hv]; push_cast; rfl
  have hint : 4 ≤ u ^ 2 + 3 * v ^ 2 := by
    by_cases hv0 : v = 0
    · have hj : j = j' := by omega
      have hi : i ≠ i' := by rintro rfl; exact hne (by rw [hj])
      have hu2 : u = 2 * ((i : ℤ) - i') := by rw [hu, hj]; ring
      have h2 : (1 : ℤ) ≤ ((i : ℤ) - i') ^ 2 := by
        have : ((i : ℤ) - i') ≠ 0 := by omega
        have := Int.one_le_abs this
        nlinarith [sq_abs ((i : ℤ) - i'), abs_nonneg ((i : ℤ) - i')]
      rw [hu2, hv0]; nlinarith
    · have hv1 : 1 ≤ v ^ 2 := by
        have := Int.one_le_abs hv0
        nlinarith [sq_abs v]
      by_cases hv2 : v ^ 2 = 1
      · have hvo : v = 1 ∨ v = -1 := by
          have : (v - 1) * (v + 1) = 0 := by linear_combination hv2
          rcases mul_eq_zero.mp this with h | h
          · left; omega
          · right; omega
        have hpar : u ≠ 0 := by
          have : (Odd j ∧ ¬ Odd j') ∨ (¬ Odd j ∧ Odd j') := by
            simp only [Nat.odd_iff]; omega
          rcases this with ⟨a, b⟩ | ⟨a, b⟩
          · rw [if_pos a, if_neg b] at hu; omega
          · rw [if_neg a, if_pos b] at hu; omega
        have := Int.one_le_abs hpar
        nlinarith [sq_abs u]
      · have : 2 ≤ v ^ 2 := by omega
        nlinarith [sq_nonneg u]
  have hintR : (4 : ℝ) ≤ (u : ℝ) ^ 2 + 3 * (v : ℝ) ^ 2 := by exact_mod_cast hint
  have hexp : ((stagPos B (Real.sqrt 3 / 2 * B) i j).1 - (stagPos B (Real.sqrt 3 / 2 * B) i' j').1) ^ 2
      + ((stagPos B (Real.sqrt 3 / 2 * B) i j).2 - (stagPos B (Real.sqrt 3 / 2 * B) i' j').2) ^ 2
      = B ^ 2 / 4 * ((u : ℝ) ^ 2 + 3 * (v : ℝ) ^ 2) := by
    rw [huR, hvR]
    simp only [stagPos]
    have h3' : ∀ t : ℝ, (Real.sqrt 3 * t) ^ 2 = 3 * t ^ 2 := fun t => by rw [mul_pow, h3]
    rw [show (j : ℝ) * (Real.sqrt 3 / 2 * B) - (j' : ℝ) * (Real.sqrt 3 / 2 * B)
      = Real.sqrt 3 * (B / 2 * ((j : ℝ) - j')) by ring, h3']
    split_ifs <;> ring
  rw [hexp]
  nlinarith [sq_nonneg B]

/-- **C17** (dense rectangle).  Boreholes of the dense rectangle are at distinct positions and
any two of them are at least `B` apart, whatever the numbers of rows and columns. -/
theorem dense_spacing (B : ℝ) (hB : 0 < B) (last : Bool) :
    ∃ f, denseField N1 N2 B H D rb last tilt origin = some f ∧ f.WF ∧
      (f.toBoreholes.map posn).Nodup ∧
      ∀ b ∈ f.toBoreholes, ∀ c ∈ f.toBoreholes, posn b ≠ posn c →
        B ^ 2 ≤ (b.x - c.x) ^ 2 + (b.y - c.y) ^ 2 := by
  have hs3 : (0 : ℝ) < Real.sqrt 3 := Real.sqrt_pos.mpr (by norm_num)
  have hsB : Real.sqrt 3 / 2 * B ≠ 0 := by positivity
  have key : ∀ a b : ℕ, a ≠ b → (1 : ℝ) ≤ ((a : ℝ) - b) ^ 2 := by
    intro a b hab
    have h0 : ((a : ℤ) - b) ≠ 0 := by omega
    have h1 : (1 : ℤ) ≤ ((a : ℤ) - b) ^ 2 := by
      have := Int.one_le_abs h0
      nlinarith [sq_abs ((a : ℤ) - b)]
    exact_mod_cast h1
  by_cases hr : N1 = 1 ∨ N2 = 1
  · -- a single row or column
    have hB2 : (if N1 > 1 then Real.sqrt 3 / 2 * B else B) ≠ 0 := by
      split_ifs
      · exact hsB
      · exact hB.ne'
    obtain ⟨f, hf, hwf, hc, -⟩ := rectangle_positions N1 N2 B (if N1 > 1 then Real.sqrt 3 / 2 * B else B)
      H D rb tilt origin hB.ne' hB2
    refine ⟨f, ?_, hwf, hc.nodup, ?_⟩
    · rw [denseField, staggeredField, if_pos hr]; exact hf
    intro b hb c hcm hne
    obtain ⟨i, j, hi, hj, -, hp⟩ := (hc.mem (posn b)).mp (List.mem_map_of_mem hb)
    obtain ⟨i', j', hi', hj', -, hq⟩ := (hc.mem (posn c)).mp (List.mem_map_of_mem hcm)
    have hx : b.x = (i : ℝ) * B := congrArg Prod.fst hp
    have hy := congrArg Prod.snd hp
    have hx' : c.x = (i' : ℝ) * B := congrArg Prod.fst hq
    have hy' := congrArg Prod.snd hq
    simp only [posn] at hy hy'
    rw [hx, hx', hy, hy']
    by_cases h1 : N1 = 1
    · have hii : i = i' := by omega
      have hjj : j ≠ j' := by
        rintro rfl
        exact hne (by rw [hp, hq, hii])
      have := key j j' hjj
      rw [if_neg (by omega), hii]
      nlinarith [sq_nonneg B]
    · have hjj : j = j' := by omega
      have hii : i ≠ i' := by
        rintro rfl
        exact hne (by rw [hp, hq, hjj])
      have := key i i' hii
      rw [hjj]
      nlinarith [sq_nonneg B]
  · by_cases h0 : N1 = 0
    · subst h0
      obtain ⟨f, hf, hwf, hnd, hmem, -⟩ := staggered_positions 0 N2 B B H D rb tilt origin last (by omega)
        (by omega) hB.ne' hB.ne'
      refine ⟨f, ?_, hwf, hnd, ?_⟩
      · rw [denseField, if_neg (by omega)]; exact hf
      intro b hb
      obtain ⟨i, j, h, -⟩ := (hmem (posn b)).mp (List.mem_map_of_mem hb)
      exact absurd h.1 (by omega)
    obtain ⟨f, hf, hwf, hnd, hmem, -⟩ := staggered_positions N1 N2 B (Real.sqrt 3 / 2 * B) H D rb tilt
      origin last (by tauto) (by tauto) hB.ne' hsB
    refine ⟨f, ?_, hwf, hnd, ?_⟩
    · rw [denseField, if_pos (by omega)]; exact hf
    intro b hb c hcm hne
    obtain ⟨i, j, -, hp⟩ := (hmem (posn b)).mp (List.mem_map_of_mem hb)
    obtain ⟨i', j', -, hq⟩ := (hmem (posn c)).mp (List.mem_map_of_mem hcm)
    have hij : (i, j) ≠ (i', j') := by
      intro h
      simp only [Prod.mk.injEq] at h
      exact hne (by rw [hp, hq, h.1, h.2])
    have := stag_spacing B i j i' j' hij
    rw [← hp, ← hq] at this
    exact this

/-! ### Tilt away from the origin (C56) -/

/-- Specification: a borehole closer than `r_b` to the origin is vertical, and any other has
the requested tilt and, if that tilt is not negligible, leans away from the origin: its
horizontal direction is the unit vector from the origin to the borehole. -/
def LeansOut (f : Borefield) (o : ℝ × ℝ) : Prop :=
  ∀ b ∈ f.toBoreholes,
    (Real.sqrt ((b.x - o.1) ^ 2 + (b.y - o.2) ^ 2) < rb → b.tilt = 0) ∧
    (¬ Real.sqrt ((b.x - o.1) ^ 2 + (b.y - o.2) ^ 2) < rb → b.tilt = tilt ∧
      (1 / 10 ^ 6 < |tilt| →
        Real.sqrt ((b.x - o.1) ^ 2 + (b.y - o.2) ^ 2) * Real.cos b.orientation = b.x - o.1 ∧
        Real.sqrt ((b.x - o.1) ^ 2 + (b.y - o.2) ^ 2) * Real.sin b.orientation = b.y - o.2))

theorem finish_leans (x y : List ℝ) (hxy : x.length = y.length) (o : ℝ × ℝ) (f : Borefield)
    (hf' : finish H D rb tilt o x y = some f) : LeansOut rb tilt f o := by
  obtain ⟨g, hf, -, hl⟩ := finish_spec H D rb tilt o x y hxy
  rw [hf'] at hf
  simp only [Option.some.injEq] at hf
  subst hf
  intro b hb
  rw [hl, List.mem_map] at hb
  obtain ⟨p, -, rfl⟩ := hb
  have hn : ‖(⟨p.1 - o.1, p.2 - o.2⟩ : ℂ)‖ = dist0 o.1 o.2 p.1 p.2 := by
    rw [Complex.norm_eq_sqrt_sq_add_sq]; rfl
  show (dist0 o.1 o.2 p.1 p.2 < rb → _) ∧ (¬ dist0 o.1 o.2 p.1 p.2 < rb → _ ∧ (tilted tilt →
    dist0 o.1 o.2 p.1 p.2 * _ = p.1 - o.1 ∧ dist0 o.1 o.2 p.1 p.2 * _ = p.2 - o.2))
  refine ⟨?_, ?_⟩
  · intro hd
    simp only [newBorehole, Borehole.new]
    rw [if_pos hd]
  · intro hd
    simp only [newBorehole, Borehole.new]
    rw [if_neg hd]
    refine ⟨rfl, fun ht => ?_⟩
    rw [if_pos ht, ← hn, arctan2]
    exact ⟨Complex.norm_mul_cos_arg _, Complex.norm_mul_sin_arg _⟩

/-- Specification: the documented origin when none is given is the centre of the grid. -/
def gridOrigin (origin : Option (ℝ × ℝ)) : ℝ × ℝ :=
  match origin with
  | some o => o
  | none => (((N1 : ℝ) - 1) / 2 * B1, ((N2 : ℝ) - 1) / 2 * B2)

theorem originOr_grid : originOr origin (centre N1 N2 B1 B2) = gridOrigin N1 N2 B1 B2 origin := by
  cases origin <;> rfl

/-- **C56.**  The boreholes of a rectangular, L-shaped, U-shaped or box-shaped field lean
away from the given origin, or from the centre of the grid if none is given. -/
theorem grid_leans_out (h1 : 1 ≤ N1) (h2 : 1 ≤ N2) (f : Borefield)
    (hf : rectangleField N1 N2 B1 B2 H D rb tilt origin = some f ∨
      lField N1 N2 B1 B2 H D rb tilt origin = some f ∨
      uField N1 N2 B1 B2 H D rb tilt origin = some f ∨
      boxField N1 N2 B1 B2 H D rb tilt origin = some f) :
    LeansOut rb tilt f (gridOrigin N1 N2 B1 B2 origin) := by
  rw [← originOr_grid]
  rcases hf with hf | hf | hf | hf
  · exact finish_leans H D rb tilt _ _ (rect_zip N1 N2 B1 B2).2 _ f hf
  · exact finish_leans H D rb tilt _ _ (l_zip N1 N2 B1 B2).2 _ f (lField_pos N1 N2 B1 B2 H D rb tilt origin h2 ▸ hf)
  · exact finish_leans H D rb tilt _ _ (u_zip N1 N2 h1 B1 B2).2 _ f (uField_pos N1 N2 B1 B2 H D rb tilt origin h2 ▸ hf)
  · exact finish_leans H D rb tilt _ _ (box_zip N1 N2 h1 h2 B1 B2).2 _ f hf

/-- **C56** (circle).  The boreholes lean away from the given origin or the centre. -/
theorem circle_leans_out (N : ℕ) (R : ℝ) (f : Borefield)
    (hf : circleField N R H D rb tilt origin = some f) : LeansOut rb tilt f (origin.getD (0, 0)) :=
  finish_leans H D rb tilt _ _ (by simp [circX, circY]) _ f hf

/-- **C56** (staggered and dense rectangles).  The boreholes lean away from the given origin. -/
theorem staggered_leans_out (last : Bool) (h1 : 1 ≤ N1) (h2 : 1 ≤ N2) (o : ℝ × ℝ) (f : Borefield)
    (hf : staggeredField N1 N2 B1 B2 H D rb last tilt (some o) = some f) : LeansOut rb tilt f o := by
  unfold staggeredField at hf
  split_ifs at hf with h
  · exact grid_leans_out N1 N2 B1 B2 H D rb tilt (some o) h1 h2 f (Or.inl hf)
  · exact finish_leans H D rb tilt _ _ (stag_zip N1 N2 B1 B2 last).2 _ f hf

/-- Specification: `o` is the centre of the smallest rectangle, with sides along the axes, that contains all the boreholes. -/
structure Middle (l : List Borehole) (o : ℝ × ℝ) : Prop where
  x : ∃ a ∈ l, ∃ c ∈ l, (∀ b ∈ l, a.x ≤ b.x ∧ b.x ≤ c.x) ∧ o.1 = (a.x + c.x) / 2
  y : ∃ a ∈ l, ∃ c ∈ l, (∀ b ∈ l, a.y ≤ b.y ∧ b.y ≤ c.y) ∧ o.2 = (a.y + c.y) / 2

theorem Middle.unique {l : List Borehole} {o o' : ℝ × ℝ} (h : Middle l o) (h' : Middle l o') : o = o' := by
  obtain ⟨a, ha, c, hc, hac, ho⟩ := h.x
  obtain ⟨a', ha', c', hc', hac', ho'⟩ := h'.x
  obtain ⟨e, he, g, hg, heg, hp⟩ := h.y
  obtain ⟨e', he', g', hg', heg', hp'⟩ := h'.y
  apply Prod.ext
  · rw [ho, ho', le_antisymm (hac _ ha').1 (hac' _ ha).1, le_antisymm (hac' _ hc).2 (hac _ hc').2]
  · rw [hp, hp', le_antisymm (heg _ he').1 (heg' _ he).1, le_antisymm (heg' _ hg).2 (heg _ hg').2]

theorem stagPoints_middle (last : Bool) (h1 : 2 ≤ N1) (h2 : 2 ≤ N2) (hB1 : 0 < B1) (hB2 : 0 < B2) {l : List Borehole}
    (hpos : ∀ p, p ∈ l.map posn ↔ ∃ i j, StagPoint N1 N2 last i j ∧ p = stagPos B1 B2 i j) : Middle l (stagCentre N1 N2 last B1 B2) := by
  have hb : ∀ b ∈ l, ∃ i j, StagPoint N1 N2 last i j ∧ b.x = ((i : ℝ) + if Odd j then 1 / 2 else 0) * B1 ∧ b.y = (j : ℝ) * B2 := fun b hb => by
    obtain ⟨i, j, hp, he⟩ := (hpos (posn b)).mp (List.mem_map_of_mem hb)
    exact ⟨i, j, hp, congrArg Prod.fst he, congrArg Prod.snd he⟩
  have hat : ∀ i j, StagPoint N1 N2 last i j → ∃ b ∈ l, b.x = ((i : ℝ) + if Odd j then 1 / 2 else 0) * B1 ∧ b.y = (j : ℝ) * B2 := fun i j h => by
    obtain ⟨b, hb, he⟩ := List.mem_map.mp ((hpos (stagPos B1 B2 i j)).mpr ⟨i, j, h, rfl⟩)
    exact ⟨b, hb, congrArg Prod.fst he, congrArg Prod.snd he⟩
  constructor
  · obtain ⟨a, ha, hax, -⟩ := hat 0 0 ⟨by omega, by omega, fun h => by simp at h⟩
    cases last with
    | true =>
      obtain ⟨c, hc, hcx, -⟩ := hat (N1 - 1) 1 ⟨by omega, by omega, fun h => by simp at h⟩
      refine ⟨a, ha, c, hc, fun b hbf => ?_, ?_⟩
      · obtain ⟨i, j, ⟨hi, -, -⟩, hbx, -⟩ := hb b hbf
        have : (i : ℝ) ≤ ((N1 - 1 : ℕ) : ℝ) := by exact_mod_cast (by omega : i ≤ N1 - 1)
        rw [hax, hcx, hbx]
        constructor <;> apply mul_le_mul_of_nonneg_right _ hB1.le
        · simp; positivity
        · simp only [odd_one, if_true]
          split_ifs <;> linarith
      · rw [hax, hcx]
        push_cast [Nat.cast_sub (show 1 ≤ N1 by omega)]
        simp [stagCentre]
        ring
    | false =>
      obtain ⟨c, hc, hcx, -⟩ := hat (N1 - 1) 0 ⟨by omega, by omega, fun h => by simp at h⟩
      refine ⟨a, ha, c, hc, fun b hbf => ?_, ?_⟩
      · obtain ⟨i, j, ⟨hi, -, hl⟩, hbx, -⟩ := hb b hbf
        rw [hax, hcx, hbx]
        constructor <;> apply mul_le_mul_of_nonneg_right _ hB1.le
        · simp; positivity
        · by_cases hj : Odd j
          · have : (i : ℝ) + 1 ≤ ((N1 - 1 : ℕ) : ℝ) := by exact_mod_cast (by have := hl ⟨hj, rfl⟩; omega : i + 1 ≤ N1 - 1)
            simp [hj]
            linarith
          · have : (i : ℝ) ≤ ((N1 - 1 : ℕ) : ℝ) := by exact_mod_cast (by omega : i ≤ N1 - 1)
            simp [hj, this]
      · rw [hax, hcx]
        push_cast [Nat.cast_sub (show 1 ≤ N1 by omega)]
        simp [stagCentre, centre]
        ring
  · obtain ⟨a, ha, -, hay⟩ := hat 0 0 ⟨by omega, by omega, fun h => by simp at h⟩
    obtain ⟨c, hc, -, hcy⟩ := hat 0 (N2 - 1) ⟨by omega, by omega, fun _ => by omega⟩
    refine ⟨a, ha, c, hc, fun b hbf => ?_, ?_⟩
    · obtain ⟨i, j, ⟨-, hj, -⟩, -, hby⟩ := hb b hbf
      have : (j : ℝ) ≤ ((N2 - 1 : ℕ) : ℝ) := by exact_mod_cast (by omega : j ≤ N2 - 1)
      rw [hay, hcy, hby]
      constructor <;> apply mul_le_mul_of_nonneg_right _ hB2.le
      · simp
      · exact this
    · rw [hay, hcy]
      push_cast [Nat.cast_sub (show 1 ≤ N2 by omega)]
      cases last <;> simp [stagCentre, centre] <;> ring

/-- **C56** (staggered and dense rectangles, default origin).  Without an origin, the boreholes lean away from the centre of the field. -/
theorem staggered_default_leans_out (last : Bool) (h1 : 2 ≤ N1) (h2 : 2 ≤ N2) (hB1 : 0 < B1) (hB2 : 0 < B2) :
    ∃ f o, staggeredField N1 N2 B1 B2 H D rb last tilt none = some f ∧ LeansOut rb tilt f o ∧ Middle f.toBoreholes o := by
  obtain ⟨f, hf, -, -, hpos, -⟩ := staggered_positions N1 N2 B1 B2 H D rb tilt none last (by omega) (by omega) hB1.ne' hB2.ne'
  have hf' := hf
  rw [staggeredField, if_neg (by omega)] at hf'
  exact ⟨f, _, hf, finish_leans H D rb tilt _ _ (stag_zip N1 N2 B1 B2 last).2 _ f hf', stagPoints_middle N1 N2 B1 B2 last h1 h2 hB1 hB2 hpos⟩

/-- Non-vacuity: the corner borehole of a tilted 2 × 2 field is farther than `r_b` from the
origin, so it is tilted and leans out. -/
example : ∃ f, rectangleField 2 2 5 5 100 4 0.075 (1 / 4) none = some f ∧
    ∃ b ∈ f.toBoreholes, b.tilt = 1 / 4 := by
  obtain ⟨f, hf, -, hc, -⟩ := rectangle_positions 2 2 5 5 100 4 0.075 (1 / 4) none (by norm_num) (by norm_num)
  have hl := grid_leans_out 2 2 5 5 100 4 0.075 (1 / 4) none (by omega) (by omega) f (Or.inl hf)
  obtain ⟨b, hb, hp⟩ := List.mem_map.mp ((hc.mem (0, 0)).mpr ⟨0, 0, by omega, by omega, trivial, by simp⟩)
  refine ⟨f, hf, b, hb, ((hl b hb).2 ?_).1⟩
  have hx : b.x = 0 := congrArg Prod.fst hp
  have hy : b.y = 0 := congrArg Prod.snd hp
  rw [hx, hy, not_lt]
  apply Real.le_sqrt_of_sq_le
  simp only [gridOrigin]
  norm_num

/-! ### Circle -/

/-- **C17** (circle).  `N` distinct boreholes, all at distance `R` from the centre. -/
theorem circle_positions (N : ℕ) (R : ℝ) (hR : R ≠ 0) :
    ∃ f, circleField N R H D rb tilt origin = some f ∧ f.WF ∧ f.nBoreholes = N ∧
      (f.toBoreholes.map posn).Nodup ∧ ∀ b ∈ f.toBoreholes, b.x ^ 2 + b.y ^ 2 = R ^ 2 := by
  obtain ⟨f, hf, hwf, hl⟩ := finish_spec H D rb tilt (originOr origin (0, 0)) (circX N R) (circY N R)
    (by simp [circX, circY])
  have hz : (circX N R).zip (circY N R) = (List.range N).map fun i : ℕ =>
      (R * Real.cos (2 * Real.pi * (i : ℝ) / (N : ℝ)), R * Real.sin (2 * Real.pi * (i : ℝ) / (N : ℝ))) := by
    rw [circX, circY, List.zip_map']
  have hpos : f.toBoreholes.map posn = (List.range N).map fun i : ℕ =>
      (R * Real.cos (2 * Real.pi * (i : ℝ) / (N : ℝ)), R * Real.sin (2 * Real.pi * (i : ℝ) / (N : ℝ))) := by
    rw [hl, hz, List.map_map, List.map_map]
    rfl
  refine ⟨f, hf, hwf, ?_, ?_, ?_⟩
  · rw [← toBoreholes_length f hwf, ← List.length_map (f := posn), hpos]; simp
  · rw [hpos, List.nodup_map_iff_inj_on List.nodup_range]
    intro a ha b hb hab
    rw [List.mem_range] at ha hb
    simp only [Prod.mk.injEq] at hab
    have hc := mul_left_cancel₀ hR hab.1
    have hs := mul_left_cancel₀ hR hab.2
    have hN : N ≠ 0 := by omega
    have hprim := Complex.isPrimitiveRoot_exp N hN
    have hexp : ∀ k : ℕ, Complex.exp (2 * Real.pi * Complex.I / N) ^ k
        = ⟨Real.cos (2 * Real.pi * (k : ℝ) / (N : ℝ)), Real.sin (2 * Real.pi * (k : ℝ) / (N : ℝ))⟩ := by
      intro k
      rw [← Complex.exp_nat_mul]
      rw [show (k : ℂ) * (2 * Real.pi * Complex.I / N) = ((2 * Real.pi * (k : ℝ) / (N : ℝ) : ℝ) : ℂ) * Complex.I by
        push_cast; ring]
      apply Complex.ext
      · exact Complex.exp_ofReal_mul_I_re _
      · exact Complex.exp_ofReal_mul_I_im _
    refine hprim.pow_inj ha hb ?_
    rw [hexp a, hexp b, hc, hs]
  · intro b hb
    rw [hl, hz, List.map_map, List.mem_map] at hb
    obtain ⟨i, -, rfl⟩ := hb
    simp only [Function.comp_apply, newBorehole, Borehole.new]
    have := Real.sin_sq_add_cos_sq (2 * Real.pi * (i : ℝ) / (N : ℝ))
    linear_combination R ^ 2 * this

/-! ### The deprecated functions (C18) -/

theorem old_eq_new (o p : ℝ × ℝ) (h : tilt = 0 ∨ dist0 o.1 o.2 p.1 p.2 ≠ rb) :
    oldBorehole H D rb tilt o p.1 p.2 = newBorehole H D rb tilt o p := by
  have h00 : ∀ a b c d e v w : ℝ, Borehole.new a b c d e 0 v = Borehole.new a b c d e 0 w := by
    intro a b c d e v w
    have h : ¬ tilted 0 := by rw [tilted, abs_zero]; norm_num
    simp only [Borehole.new, if_neg h]
  unfold oldBorehole newBorehole
  rcases h with rfl | h
  · simp only [ite_self]
    split_ifs
    · rfl
    · exact h00 _ _ _ _ _ _ _
  · by_cases hd : dist0 o.1 o.2 p.1 p.2 > rb
    · rw [if_pos hd, if_neg (not_lt.mpr hd.le)]
    · rw [if_neg hd, if_pos (lt_of_le_of_ne (not_lt.mp hd) h)]
      exact h00 _ _ _ _ _ _ _

theorem old_posn (o : ℝ × ℝ) (x y : ℝ) : posn (oldBorehole H D rb tilt o x y) = (x, y) := by
  unfold oldBorehole; split_ifs <;> rfl

/-- The deprecated builders as lists of boreholes at grid points. -/
theorem oldRectangle_idx : oldRectangle N1 N2 B1 B2 H D rb tilt origin
    = (rectIdx N1 N2).map fun p => oldBorehole H D rb tilt (originOr origin (centre N1 N2 B1 B2))
      (emb B1 B2 p).1 (emb B1 B2 p).2 := by
  simp only [oldRectangle, rectIdx, List.map_flatMap, List.map_map]
  rfl

theorem oldL_idx : oldL N1 N2 B1 B2 H D rb tilt origin
    = (lIdx N1 N2).map fun p => oldBorehole H D rb tilt (originOr origin (centre N1 N2 B1 B2))
      (emb B1 B2 p).1 (emb B1 B2 p).2 := by
  simp [oldL, lIdx, emb, Function.comp_def]

theorem uIdx_small (h1 : 1 ≤ N1) (h2 : 1 ≤ N2) (h : ¬ (N1 > 2 ∧ N2 > 1)) : uIdx N1 N2 = rectIdx N1 N2 := by
  obtain ⟨m, rfl⟩ : ∃ m, N2 = m + 1 := ⟨N2 - 1, by omega⟩
  rw [uIdx, rectIdx, List.range_succ_eq_map, List.flatMap_cons, sidesIdx, Nat.add_sub_cancel, List.flatMap_map]
  congr 1
  by_cases hm : m = 0
  · subst hm; rfl
  · have hN : N1 = 1 ∨ N1 = 2 := by omega
    rcases hN with rfl | rfl <;> simp [List.range_succ]

theorem oldU_idx (h1 : 1 ≤ N1) (h2 : 1 ≤ N2) : oldU N1 N2 B1 B2 H D rb tilt origin
    = (uIdx N1 N2).map fun p => oldBorehole H D rb tilt (originOr origin (centre N1 N2 B1 B2))
      (emb B1 B2 p).1 (emb B1 B2 p).2 := by
  unfold oldU
  split_ifs with h
  · have hmin : min N1 2 = 2 := by omega
    have hc : ((N1 - 1 : ℕ) : ℝ) = (N1 : ℝ) - 1 := by push_cast [Nat.cast_sub h1]; ring
    simp only [uIdx, sidesIdx, hmin, List.map_append, List.map_map, List.map_flatMap]
    simp [Function.comp_def, emb, List.range_succ, hc]
  · rw [oldRectangle_idx, uIdx_small N1 N2 h1 h2 h]

theorem boxIdx_small (h1 : 1 ≤ N1) (h2 : 1 ≤ N2) (h : ¬ (N1 > 2 ∧ N2 > 2)) : boxIdx N1 N2 = rectIdx N1 N2 := by
  by_cases hN2 : N2 = 1
  · subst hN2
    simp [boxIdx, rectIdx, sidesIdx, nTop]
  · obtain ⟨m, rfl⟩ : ∃ m, N2 = m + 2 := ⟨N2 - 2, by omega⟩
    have hrow : rectIdx N1 (m + 2) = uIdx N1 (m + 1) ++ ((List.range N1).map fun i => (i, m + 1)) ∨ m = 0 := by
      by_cases hm : m = 0
      · right; exact hm
      · left
        have hsm : ¬ (N1 > 2 ∧ m + 1 > 1) := by omega
        rw [uIdx_small N1 (m + 1) h1 (by omega) hsm, rectIdx, rectIdx, List.range_succ (n := m + 1)]
        simp
    rcases hrow with hrow | rfl
    · rw [hrow, boxIdx, uIdx]
      simp [nTop]
    · simp [boxIdx, rectIdx, sidesIdx, nTop, List.range_succ]

theorem flatMap_two_perm {α β : Type*} (l : List α) (f g : α → β) :
    (l.flatMap fun a => [f a, g a]).Perm (l.map f ++ l.map g) := by
  induction l with
  | nil => exact List.Perm.refl _
  | cons a l ih =>
    simp only [List.flatMap_cons, List.map_cons, List.cons_append, List.nil_append]
    refine List.Perm.cons _ ?_
    exact (List.Perm.cons _ ih).trans List.perm_middle.symm

theorem oldBox_perm (h1 : 1 ≤ N1) (h2 : 1 ≤ N2) : (oldBox N1 N2 B1 B2 H D rb tilt origin).Perm
    ((boxIdx N1 N2).map fun p => oldBorehole H D rb tilt (originOr origin (centre N1 N2 B1 B2))
      (emb B1 B2 p).1 (emb B1 B2 p).2) := by
  unfold oldBox
  split_ifs with h
  · have hmin : min N1 2 = 2 := by omega
    have hc : ((N1 - 1 : ℕ) : ℝ) = (N1 : ℝ) - 1 := by push_cast [Nat.cast_sub h1]; ring
    have hc2 : ((N2 - 1 : ℕ) : ℝ) = (N2 : ℝ) - 1 := by push_cast [Nat.cast_sub h2]; ring
    have htop : nTop N1 N2 = N1 := by rw [nTop, if_pos (by omega)]
    simp only [boxIdx, sidesIdx, hmin, htop, List.map_append, List.map_map, List.map_flatMap]
    simp only [Function.comp_def, emb, List.range_succ, List.range_zero, hc, hc2, List.nil_append,
      List.cons_append, List.map_cons, List.map_nil, Nat.cast_zero, zero_mul, Nat.cast_add, Nat.cast_one,
      one_mul]
    refine (List.Perm.append_right _ (flatMap_two_perm _ _ _)).trans ?_
    rw [List.append_assoc, List.append_assoc]
    exact List.Perm.append_left _ List.perm_append_comm
  · rw [oldRectangle_idx, boxIdx_small N1 N2 h1 h2 h]

/-- Specification: no grid position lies at distance exactly `r_b` from the origin of the
tilt, or there is no tilt. -/
def NoTie (f : List Borehole) (o : ℝ × ℝ) : Prop :=
  tilt = 0 ∨ ∀ b ∈ f, dist0 o.1 o.2 b.x b.y ≠ rb

theorem field_list (o : ℝ × ℝ) (x y : List ℝ) (idx : List (ℕ × ℕ))
    (hzip : x.zip y = idx.map (emb B1 B2)) (hlen : x.length = y.length) (f : Borefield)
    (hf : finish H D rb tilt o x y = some f) :
    f.toBoreholes = (idx.map (emb B1 B2)).map (newBorehole H D rb tilt o) := by
  obtain ⟨g, hg, -, hl⟩ := finish_spec H D rb tilt o x y hlen
  rw [hf] at hg
  simp only [Option.some.injEq] at hg
  subst hg
  rw [hl, hzip]

theorem old_list_eq (o : ℝ × ℝ) (idx : List (ℕ × ℕ))
    (hno : NoTie rb tilt ((idx.map (emb B1 B2)).map (newBorehole H D rb tilt o)) o) :
    (idx.map fun p => oldBorehole H D rb tilt o (emb B1 B2 p).1 (emb B1 B2 p).2)
      = (idx.map (emb B1 B2)).map (newBorehole H D rb tilt o) := by
  rw [List.map_map]
  apply List.map_congr_left
  intro p hp
  refine old_eq_new H D rb tilt o (emb B1 B2 p) ?_
  rcases hno with h | h
  · exact Or.inl h
  · right
    exact h _ (List.mem_map.mpr ⟨emb B1 B2 p, List.mem_map.mpr ⟨p, hp, rfl⟩, rfl⟩)

theorem old_list_posn (o : ℝ × ℝ) (idx : List (ℕ × ℕ)) :
    (idx.map fun p => oldBorehole H D rb tilt o (emb B1 B2 p).1 (emb B1 B2 p).2).map posn
      = ((idx.map (emb B1 B2)).map (newBorehole H D rb tilt o)).map posn := by
  rw [List.map_map, List.map_map, List.map_map]
  apply List.map_congr_left
  intro p _
  simp only [Function.comp_apply, old_posn, posn_new]

/-- **C18** (rectangle).  The deprecated function creates boreholes at the same positions, in
the same order, as `Borefield.rectangle_field`; the boreholes are identical (dimensions, tilt
and orientation) unless a borehole lies at distance exactly `r_b` from the origin of a
non-zero tilt. -/
theorem rectangle_agree (f : Borefield) (hf : rectangleField N1 N2 B1 B2 H D rb tilt origin = some f) :
    (oldRectangle N1 N2 B1 B2 H D rb tilt origin).map posn = f.toBoreholes.map posn ∧
    (NoTie rb tilt f.toBoreholes (originOr origin (centre N1 N2 B1 B2)) →
      oldRectangle N1 N2 B1 B2 H D rb tilt origin = f.toBoreholes) := by
  have hl := field_list B1 B2 H D rb tilt _ _ _ _ (rect_zip N1 N2 B1 B2).1 (rect_zip N1 N2 B1 B2).2 f hf
  rw [hl, oldRectangle_idx]
  exact ⟨old_list_posn _ _ _ _ _ _ _ _, old_list_eq _ _ _ _ _ _ _ _⟩

/-- **C18** (L shape). -/
theorem l_agree (f : Borefield) (hf : lField N1 N2 B1 B2 H D rb tilt origin = some f) :
    (oldL N1 N2 B1 B2 H D rb tilt origin).map posn = f.toBoreholes.map posn ∧
    (NoTie rb tilt f.toBoreholes (originOr origin (centre N1 N2 B1 B2)) →
      oldL N1 N2 B1 B2 H D rb tilt origin = f.toBoreholes) := by
  have h2 : 1 ≤ N2 := by
    by_contra h
    rw [show N2 = 0 by omega, (l_u_empty N1 B1 B2 H D rb tilt origin).1] at hf
    cases hf
  rw [lField_pos _ _ _ _ _ _ _ _ _ h2] at hf
  have hl := field_list B1 B2 H D rb tilt _ _ _ _ (l_zip N1 N2 B1 B2).1 (l_zip N1 N2 B1 B2).2 f hf
  rw [hl, oldL_idx]
  exact ⟨old_list_posn _ _ _ _ _ _ _ _, old_list_eq _ _ _ _ _ _ _ _⟩

/-- **C18** (U shape). -/
theorem u_agree (h1 : 1 ≤ N1) (h2 : 1 ≤ N2) (f : Borefield)
    (hf : uField N1 N2 B1 B2 H D rb tilt origin = some f) :
    (oldU N1 N2 B1 B2 H D rb tilt origin).map posn = f.toBoreholes.map posn ∧
    (NoTie rb tilt f.toBoreholes (originOr origin (centre N1 N2 B1 B2)) →
      oldU N1 N2 B1 B2 H D rb tilt origin = f.toBoreholes) := by
  rw [uField_pos _ _ _ _ _ _ _ _ _ h2] at hf
  have hl := field_list B1 B2 H D rb tilt _ _ _ _ (u_zip N1 N2 h1 B1 B2).1 (u_zip N1 N2 h1 B1 B2).2 f hf
  rw [hl, oldU_idx _ _ _ _ _ _ _ _ _ h1 h2]
  exact ⟨old_list_posn _ _ _ _ _ _ _ _, old_list_eq _ _ _ _ _ _ _ _⟩

/-- **C18** (box shape).  Here the two functions list the boreholes in different orders. -/
theorem box_agree (h1 : 1 ≤ N1) (h2 : 1 ≤ N2) (f : Borefield)
    (hf : boxField N1 N2 B1 B2 H D rb tilt origin = some f) :
    ((oldBox N1 N2 B1 B2 H D rb tilt origin).map posn).Perm (f.toBoreholes.map posn) ∧
    (NoTie rb tilt f.toBoreholes (originOr origin (centre N1 N2 B1 B2)) →
      (oldBox N1 N2 B1 B2 H D rb tilt origin).Perm f.toBoreholes) := by
  have hl := field_list B1 B2 H D rb tilt _ _ _ _ (box_zip N1 N2 h1 h2 B1 B2).1
    (box_zip N1 N2 h1 h2 B1 B2).2 f hf
  have hp := oldBox_perm N1 N2 B1 B2 H D rb tilt origin h1 h2
  rw [hl]
  refine ⟨?_, fun hno => ?_⟩
  · rw [← old_list_posn]; exact hp.map _
  · rw [← old_list_eq _ _ _ _ _ _ _ _ hno]; exact hp

/-- **C57** (violated by a tie).  When a borehole lies at distance exactly `r_b` from the origin, the two
implementations disagree: two boreholes `1` apart with `r_b = 1/2` are vertical for the
deprecated function and tilted for the new one. -/
theorem rectangle_tie_differs : ∃ f, rectangleField 2 1 1 1 100 4 (1 / 2) 1 none = some f ∧
    oldRectangle 2 1 1 1 100 4 (1 / 2) 1 none ≠ f.toBoreholes := by
  obtain ⟨f, hf, -⟩ := rectangle_positions 2 1 1 1 100 4 (1 / 2) 1 none one_ne_zero one_ne_zero
  refine ⟨f, hf, fun h => ?_⟩
  have hl := field_list 1 1 100 4 (1 / 2) 1 _ _ _ _ (rect_zip 2 1 1 1).1 (rect_zip 2 1 1 1).2 f hf
  rw [hl, oldRectangle_idx] at h
  have hidx : rectIdx 2 1 = [(0, 0), (1, 0)] := by simp [rectIdx, List.range_succ]
  rw [hidx] at h
  simp only [List.map_cons, List.cons.injEq] at h
  have ht := congrArg Borehole.tilt h.1
  have hd : dist0 (originOr none (centre 2 1 1 1)).1 (originOr none (centre 2 1 1 1)).2 (emb 1 1 (0, 0)).1
      (emb 1 1 (0, 0)).2 = 1 / 2 := by
    simp only [dist0, originOr, centre, emb, Option.getD_none]
    rw [show (((0 : ℕ) : ℝ) * 1 - (((2 : ℕ) : ℝ) - 1) / 2 * 1) ^ 2 + (((0 : ℕ) : ℝ) * 1 - (((1 : ℕ) : ℝ) - 1) / 2 * 1) ^ 2
      = (1 / 2) ^ 2 by norm_num]
    exact Real.sqrt_sq (by norm_num)
  simp only [oldBorehole, newBorehole, hd, lt_irrefl, if_false, Borehole.new] at ht
  norm_num at ht

/-- **C18** (staggered rectangle with an explicit origin). -/
theorem staggered_agree (last : Bool) (o : ℝ × ℝ) (f : Borefield)
    (hf : staggeredField N1 N2 B1 B2 H D rb last tilt (some o) = some f) :
    (oldStaggered N1 N2 B1 B2 H D rb last tilt (some o)).map posn = f.toBoreholes.map posn ∧
    (NoTie rb tilt f.toBoreholes o → oldStaggered N1 N2 B1 B2 H D rb last tilt (some o) = f.toBoreholes) := by
  unfold staggeredField at hf
  unfold oldStaggered
  split_ifs at hf ⊢ with h
  · exact rectangle_agree N1 N2 B1 B2 H D rb tilt (some o) f hf
  · obtain ⟨g, hg, -, hl⟩ := finish_spec H D rb tilt (originOr (some o) (stagCentre N1 N2 last B1 B2)) _ _
      (stag_zip N1 N2 B1 B2 last).2
    rw [hf] at hg
    simp only [Option.some.injEq] at hg
    subst hg
    rw [(stag_zip N1 N2 B1 B2 last).1] at hl
    have hold : (List.range N2).flatMap (fun j : ℕ =>
        ((List.range N1).filter fun i : ℕ => stagKeep N1 last i j).map fun i : ℕ =>
        oldBorehole H D rb tilt o ((i : ℝ) * B1 + (if j % 2 = 1 then B1 / 2 else 0)) ((j : ℝ) * B2))
        = (stagIdx N1 N2 last).map fun p => oldBorehole H D rb tilt o (stagPos B1 B2 p.1 p.2).1
          (stagPos B1 B2 p.1 p.2).2 := by
      simp only [stagIdx, List.map_flatMap, List.map_map, Function.comp_def, stagPos, Nat.odd_iff]
      congr 1
      funext j
      apply List.map_congr_left
      intro i _
      congr 1
      split_ifs <;> ring
    show ((List.range N2).flatMap _).map posn = _ ∧ (_ → (List.range N2).flatMap _ = _)
    simp only [originOr, Option.getD_some] at hl ⊢
    rw [hold, hl]
    refine ⟨?_, fun hno => ?_⟩
    · rw [List.map_map, List.map_map, List.map_map]
      apply List.map_congr_left
      intro p _
      simp only [Function.comp_apply, old_posn, posn_new]
    · rw [List.map_map]
      apply List.map_congr_left
      intro p hp
      refine old_eq_new H D rb tilt o (stagPos B1 B2 p.1 p.2) ?_
      rcases hno with h | h
      · exact Or.inl h
      · right
        exact h _ (List.mem_map.mpr ⟨stagPos B1 B2 p.1 p.2, List.mem_map.mpr ⟨p, hp, rfl⟩, rfl⟩)

/-- **C18** (dense rectangle with an explicit origin). -/
theorem dense_agree (B : ℝ) (h1 : 1 ≤ N1) (last : Bool) (o : ℝ × ℝ) (f : Borefield)
    (hf : denseField N1 N2 B H D rb last tilt (some o) = some f) :
    (oldDense N1 N2 B H D rb last tilt (some o)).map posn = f.toBoreholes.map posn ∧
    (NoTie rb tilt f.toBoreholes o → oldDense N1 N2 B H D rb last tilt (some o) = f.toBoreholes) := by
  unfold denseField at hf
  unfold oldDense
  dsimp only at hf
  by_cases h : N1 = 1
  · rw [if_neg (by omega), staggered_degenerate _ _ _ _ _ _ _ _ _ _ (Or.inl h)] at hf
    rw [if_pos h]
    exact rectangle_agree N1 N2 B B H D rb tilt (some o) f hf
  · rw [if_pos (by omega)] at hf
    rw [if_neg h]
    exact staggered_agree N1 N2 B _ H D rb tilt last o f hf

/-- **C57** (the part that holds).  Without ties, and for staggered fields with an explicit
origin, the two builders create identical boreholes.  Missing: ties at distance exactly `r_b`
(`rectangle_tie_differs`) and the default origin of staggered fields
(`staggered_default_origin_differs`). -/
theorem builders_identical_partial (last : Bool) (o : ℝ × ℝ) (f g : Borefield)
    (hf : rectangleField N1 N2 B1 B2 H D rb tilt origin = some f)
    (hg : staggeredField N1 N2 B1 B2 H D rb last tilt (some o) = some g)
    (hfn : NoTie rb tilt f.toBoreholes (originOr origin (centre N1 N2 B1 B2)))
    (hgn : NoTie rb tilt g.toBoreholes o) :
    oldRectangle N1 N2 B1 B2 H D rb tilt origin = f.toBoreholes ∧
    oldStaggered N1 N2 B1 B2 H D rb last tilt (some o) = g.toBoreholes :=
  ⟨(rectangle_agree N1 N2 B1 B2 H D rb tilt origin f hf).2 hfn,
   (staggered_agree N1 N2 B1 B2 H D rb tilt last o g hg).2 hgn⟩

/-- **C57** (violated for the default origin).  With the default origin the staggered builders disagree: for two
columns and three rows with all boreholes included, the deprecated function has a vertical
borehole in the middle where the new one has a tilted borehole. -/
theorem staggered_default_origin_differs :
    ∃ f, staggeredField 2 3 4 4 100 4 0.075 true 1 none = some f ∧
      (∃ b ∈ oldStaggered 2 3 4 4 100 4 0.075 true 1 none, b.tilt = 0) ∧ ∀ b ∈ f.toBoreholes, b.tilt = 1 := by
  obtain ⟨f, hf, -, hl⟩ := finish_spec 100 4 0.075 1 (originOr none (stagCentre 2 3 true 4 4)) _ _
    (stag_zip 2 3 4 4 true).2
  rw [(stag_zip 2 3 4 4 true).1] at hl
  refine ⟨f, by rw [staggeredField, if_neg (by omega)]; exact hf, ?_, ?_⟩
  · refine ⟨oldBorehole 100 4 0.075 1 (2, 4) 2 4, ?_, ?_⟩
    · rw [oldStaggered, if_neg (by omega)]
      simp only [List.mem_flatMap, List.mem_range, List.mem_map, List.mem_filter]
      refine ⟨1, by omega, 0, ⟨by omega, by simp [stagKeep]⟩, ?_⟩
      simp only [originOr, oldStagCentre, centre, Option.getD_none, if_true]
      norm_num
    · have : dist0 2 4 2 4 = 0 := by simp [dist0]
      simp only [oldBorehole, this]
      rw [if_neg (by norm_num)]
      rfl
  · intro b hb
    rw [hl, List.mem_map] at hb
    obtain ⟨q, hq, rfl⟩ := hb
    obtain ⟨⟨i, j⟩, hp, rfl⟩ := List.mem_map.mp hq
    have hfar : ¬ dist0 (originOr none (stagCentre 2 3 true 4 4)).1 (originOr none (stagCentre 2 3 true 4 4)).2
        (stagPos 4 4 i j).1 (stagPos 4 4 i j).2 < 0.075 := by
      rw [not_lt]
      apply Real.le_sqrt_of_sq_le
      have hi : i = 0 ∨ i = 1 := by
        simp only [stagIdx, List.mem_flatMap, List.mem_range, List.mem_map, List.mem_filter, Prod.mk.injEq] at hp
        omega
      have hx : (0.075 : ℝ) ^ 2 ≤ ((stagPos 4 4 i j).1 - (originOr none (stagCentre 2 3 true 4 4)).1) ^ 2 := by
        simp only [stagPos, originOr, stagCentre, Option.getD_none, if_true]
        rcases hi with rfl | rfl <;> split_ifs <;> norm_num
      nlinarith [sq_nonneg ((stagPos 4 4 i j).2 - (originOr none (stagCentre 2 3 true 4 4)).2)]
    simp only [newBorehole, Borehole.new]
    rw [if_neg hfar]

/-- **C57** (violated for the default origin).  With the default origin the deprecated staggered builder never takes the centre of the field: the
formulas for fields with and without the last boreholes are exchanged. -/
theorem old_staggered_origin (last : Bool) (h1 : 2 ≤ N1) (h2 : 2 ≤ N2) (hB1 : 0 < B1) (hB2 : 0 < B2) :
    ∃ o, o = (if last then (((N1 : ℝ) - 1) / 2 * B1, ((N2 : ℝ) - 1) / 2 * B2) else (((N1 : ℝ) - 1 / 2) / 2 * B1, ((N2 : ℝ) - 1 / 2) / 2 * B2)) ∧
      oldStaggered N1 N2 B1 B2 H D rb last tilt none = oldStaggered N1 N2 B1 B2 H D rb last tilt (some o) ∧
      ¬ Middle (oldStaggered N1 N2 B1 B2 H D rb last tilt none) o := by
  have he : oldStaggered N1 N2 B1 B2 H D rb last tilt none = oldStaggered N1 N2 B1 B2 H D rb last tilt (some (oldStagCentre N1 N2 last B1 B2)) := by
    rw [oldStaggered, oldStaggered, if_neg (by omega), if_neg (by omega)]
    rfl
  refine ⟨_, rfl, he, fun hm => ?_⟩
  change Middle _ (oldStagCentre N1 N2 last B1 B2) at hm
  rw [he] at hm
  obtain ⟨f, hf, -, -, hpos, -⟩ := staggered_positions N1 N2 B1 B2 H D rb tilt (some (oldStagCentre N1 N2 last B1 B2)) last (by omega) (by omega) hB1.ne' hB2.ne'
  rw [← (staggered_agree N1 N2 B1 B2 H D rb tilt last _ f hf).1] at hpos
  have hc := congrArg Prod.fst (hm.unique (stagPoints_middle N1 N2 B1 B2 last h1 h2 hB1 hB2 hpos))
  cases last <;> simp [oldStagCentre, stagCentre, centre] at hc <;> rcases hc with hc | hc <;> linarith

/-- **C18** (circle). -/
theorem circle_agree (N : ℕ) (R : ℝ) (f : Borefield) (hf : circleField N R H D rb tilt origin = some f) :
    (oldCircle N R H D rb tilt origin).map posn = f.toBoreholes.map posn ∧
    (NoTie rb tilt f.toBoreholes (originOr origin (0, 0)) →
      oldCircle N R H D rb tilt origin = f.toBoreholes) := by
  obtain ⟨g, hg, -, hl⟩ := finish_spec H D rb tilt (originOr origin (0, 0)) (circX N R) (circY N R)
    (by simp [circX, circY])
  rw [circleField] at hf
  rw [hf] at hg
  simp only [Option.some.injEq] at hg
  subst hg
  rw [circX, circY, List.zip_map', List.map_map] at hl
  rw [hl, oldCircle]
  refine ⟨?_, fun hno => ?_⟩
  · rw [List.map_map, List.map_map]
    apply List.map_congr_left
    intro p _
    simp only [Function.comp_apply, old_posn, posn_new]
  · apply List.map_congr_left
    intro i hi
    refine old_eq_new H D rb tilt _ (_, _) ?_
    rcases hno with h | h
    · exact Or.inl h
    · exact Or.inr (h _ (List.mem_map.mpr ⟨i, hi, rfl⟩))

/-- Non-vacuity: a 3 × 3 box has 8 boreholes and the middle of the grid is empty. -/
example : ∃ f, boxField 3 3 5 5 100 4 0.075 0 none = some f ∧ f.nBoreholes = 8 ∧
    ((5 : ℝ), (5 : ℝ)) ∉ f.toBoreholes.map posn := by
  obtain ⟨f, hf, -, hc, hn⟩ := box_positions 3 3 5 5 100 4 0.075 0 none (by omega) (by omega)
    (by norm_num) (by norm_num)
  refine ⟨f, hf, by simpa using hn, ?_⟩
  rw [hc.mem]
  rintro ⟨i, j, hi, hj, h, heq⟩
  simp only [Prod.mk.injEq] at heq
  have h1 : (i : ℝ) = 1 := by linarith [heq.1]
  have h2 : (j : ℝ) = 1 := by linarith [heq.2]
  have h1' : i = 1 := by exact_mod_cast h1
  have h2' : j = 1 := by exact_mod_cast h2
  omega

end Verif.Bore
