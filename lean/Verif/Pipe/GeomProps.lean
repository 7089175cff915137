import Verif.Pipe.GeomModel
import Mathlib.Analysis.Complex.Norm
import Mathlib.Analysis.Normed.Module.Basic

/-!
# Properties C43, C44: accepted geometries are physical
-/

noncomputable section

namespace Verif.Pipe.Geom

open Metric

/-! ### Specification: discs in the plane -/

/-- A point of the plane. -/
def pt (p : ℝ × ℝ) : ℂ := ⟨p.1, p.2⟩

/-- The disc of radius `r` at `p` lies inside the borehole of radius `R`. -/
def Inside (p : ℝ × ℝ) (r R : ℝ) : Prop := ∀ x : ℂ, ‖x - pt p‖ ≤ r → ‖x‖ ≤ R

/-- No point is in the interior of both discs of radius `r`. -/
def Apart (p q : ℝ × ℝ) (r : ℝ) : Prop := ∀ x : ℂ, ¬ (‖x - pt p‖ < r ∧ ‖x - pt q‖ < r)

/-- A physical U-tube borehole: positive properties, a position for each pipe, pipes inside the borehole, no overlap. -/
structure PhysicalU (a : UArgs) : Prop where
  ks : 0 < a.ks
  kg : 0 < a.kg
  Rfp : 0 < a.Rfp
  rIn : 0 < a.rIn
  rOut : a.rIn < a.rOut
  J : 0 ≤ a.J
  len : 2 * a.nPipes ≤ a.pos.length
  inside : ∀ i (h : i < 2 * a.nPipes), Inside (a.pos[i]'(lt_of_lt_of_le h len)) a.rOut a.rB
  apart : ∀ i j (hi : i < 2 * a.nPipes) (hj : j < 2 * a.nPipes), i ≠ j →
    Apart (a.pos[i]'(lt_of_lt_of_le hi len)) (a.pos[j]'(lt_of_lt_of_le hj len)) a.rOut

/-! ### Lemmas -/

theorem radius_norm (p : ℝ × ℝ) : radius p.1 p.2 = ‖pt p‖ := by
  rw [Complex.norm_eq_sqrt_sq_add_sq]; rfl

theorem radius_dist (p q : ℝ × ℝ) : radius (p.1 - q.1) (p.2 - q.2) = ‖pt p - pt q‖ := by
  rw [Complex.norm_eq_sqrt_sq_add_sq]; rfl

theorem inside_iff (p : ℝ × ℝ) {r : ℝ} (hr : 0 < r) (R : ℝ) : Inside p r R ↔ radius p.1 p.2 + r ≤ R := by
  rw [radius_norm]
  constructor
  · intro h
    by_cases hp : pt p = 0
    · have := h (r : ℂ) (by rw [hp, sub_zero, Complex.norm_real, Real.norm_of_nonneg hr.le])
      rw [Complex.norm_real, Real.norm_of_nonneg hr.le] at this
      rw [hp, norm_zero]; linarith
    · have hn : 0 < ‖pt p‖ := norm_pos_iff.mpr hp
      have h1 := h (((1 + r / ‖pt p‖ : ℝ) : ℂ) * pt p) (by
        have e : ((1 + r / ‖pt p‖ : ℝ) : ℂ) * pt p - pt p = ((r / ‖pt p‖ : ℝ) : ℂ) * pt p := by push_cast; ring
        rw [e, norm_mul, Complex.norm_real, Real.norm_of_nonneg (by positivity)]
        rw [div_mul_cancel₀ _ hn.ne'])
      rw [norm_mul, Complex.norm_real, Real.norm_of_nonneg (by positivity)] at h1
      have e : (1 + r / ‖pt p‖) * ‖pt p‖ = ‖pt p‖ + r := by field_simp
      linarith
  · intro h x hx
    have := norm_add_le (x - pt p) (pt p)
    rw [sub_add_cancel] at this
    linarith

theorem apart_iff (p q : ℝ × ℝ) (r : ℝ) : Apart p q r ↔ radius (p.1 - q.1) (p.2 - q.2) ≥ 2 * r := by
  rw [radius_dist]
  constructor
  · intro h
    by_contra hc
    push Not at hc
    refine h ((1 / 2 : ℝ) * (pt p + pt q)) ⟨?_, ?_⟩
    · have e : ((1 / 2 : ℝ) : ℂ) * (pt p + pt q) - pt p = ((1 / 2 : ℝ) : ℂ) * (-(pt p - pt q)) := by push_cast; ring
      rw [e, norm_mul, Complex.norm_real, norm_neg, Real.norm_of_nonneg (by norm_num)]
      linarith
    · have e : ((1 / 2 : ℝ) : ℂ) * (pt p + pt q) - pt q = ((1 / 2 : ℝ) : ℂ) * (pt p - pt q) := by push_cast; ring
      rw [e, norm_mul, Complex.norm_real, Real.norm_of_nonneg (by norm_num)]
      linarith
  · rintro h x ⟨h1, h2⟩
    have := norm_sub_le (x - pt q) (x - pt p)
    have e : x - pt q - (x - pt p) = pt p - pt q := by ring
    rw [e] at this
    linarith

theorem need_ok {P : Prop} {e : Err} {k : Except Err Unit} : need P e k = .ok () ↔ P ∧ k = .ok () := by
  unfold need; split_ifs with h <;> simp [h]

theorem need_error {P : Prop} {e e' : Err} {k : Except Err Unit} : need P e k = .error e' ↔ (¬ P ∧ e = e') ∨ (P ∧ k = .error e') := by
  unfold need; split_ifs with h <;> simp [h]

theorem truth_pos {b : Prop} : truth b > 0 ↔ b := by
  unfold truth; split_ifs with h <;> simp [h]

theorem truth_nonneg (b : Prop) : truth b ≥ 0 := by
  unfold truth; split_ifs <;> norm_num

theorem loop_ok {α : Type*} (f : α → Except Err Unit) (l : List α) : loop f l = .ok () ↔ ∀ x ∈ l, f x = .ok () := by
  induction l with
  | nil => simp [loop]
  | cons x xs ih =>
    unfold loop
    cases h : f x with
    | ok u => simp [ih, h]
    | error e => simp [h]

theorem loop_error {α : Type*} {f : α → Except Err Unit} {l : List α} {e : Err} (h : loop f l = .error e) :
    ∃ x ∈ l, f x = .error e := by
  induction l with
  | nil => simp [loop] at h
  | cons x xs ih =>
    unfold loop at h
    cases hx : f x with
    | ok u =>
      rw [hx] at h
      obtain ⟨y, hy, h2⟩ := ih h
      exact ⟨y, List.mem_cons_of_mem _ hy, h2⟩
    | error e' =>
      rw [hx] at h
      simp only [Except.error.injEq] at h
      exact ⟨x, List.mem_cons_self, by rw [hx, h]⟩

theorem mem_pairs (N i j : ℕ) : (i, j) ∈ pairs N ↔ i < j ∧ j < N := by
  unfold pairs
  simp only [List.mem_flatMap, List.mem_range, List.mem_map, List.mem_range'_1, Prod.mk.injEq]
  constructor
  · rintro ⟨a, ha, b, hb, rfl, rfl⟩; omega
  · rintro ⟨h1, h2⟩; exact ⟨i, by omega, j, by omega, rfl, rfl⟩

theorem insideOne_ok {a : UArgs} {i : ℕ} (hr : 0 < a.rOut) :
    insideOne a i = .ok () ↔ ∃ h : i < a.pos.length, Inside a.pos[i] a.rOut a.rB := by
  unfold insideOne
  by_cases h : i < a.pos.length
  · rw [List.getElem?_eq_getElem h]
    simp [inside_iff _ hr, h, need_ok]
  · rw [List.getElem?_eq_none (by omega)]
    simp [h]

theorem apartOne_ok {a : UArgs} {i j : ℕ} :
    apartOne a (i, j) = .ok () ↔ ∃ (h : i < a.pos.length) (h' : j < a.pos.length), Apart a.pos[i] a.pos[j] a.rOut := by
  unfold apartOne
  by_cases h : i < a.pos.length
  · by_cases h' : j < a.pos.length
    · rw [List.getElem?_eq_getElem h, List.getElem?_eq_getElem h']
      simp [apart_iff, h, h', need_ok]
    · rw [List.getElem?_eq_getElem h, List.getElem?_eq_none (by omega : a.pos.length ≤ j)]
      simp [h, h']
  · rw [List.getElem?_eq_none (by omega : a.pos.length ≤ i)]
    simp [h]

/-! ### Theorems -/

/-- **C43.**  The check of a U-tube accepts exactly the physical geometries. -/
theorem checkU_iff (a : UArgs) : checkU a = .ok () ↔ PhysicalU a := by
  unfold checkU
  simp only [need_ok]
  constructor
  · rintro ⟨h1, h2, h3, h4, h5, h6, h⟩
    have hr : 0 < a.rOut := lt_trans h4 h5
    cases hl : loop (insideOne a) (List.range (2 * a.nPipes)) with
    | error e => rw [hl] at h; simp at h
    | ok u =>
      rw [hl] at h
      dsimp only at h
      have hin := (loop_ok _ _).mp hl
      have hap := (loop_ok _ _).mp h
      have hin' : ∀ i < 2 * a.nPipes, ∃ h : i < a.pos.length, Inside a.pos[i] a.rOut a.rB := fun i hi =>
        (insideOne_ok hr).mp (hin i (List.mem_range.mpr hi))
      have hlen : 2 * a.nPipes ≤ a.pos.length := by
        by_contra hc
        push Not at hc
        obtain ⟨h, -⟩ := hin' a.pos.length hc
        exact lt_irrefl _ h
      refine ⟨h1, h2, h3, h4, h5, h6, hlen, fun i hi => (hin' i hi).2, ?_⟩
      intro i j hi hj hij
      rcases lt_or_gt_of_ne hij with hlt | hgt
      · exact (apartOne_ok.mp (hap (i, j) ((mem_pairs _ _ _).mpr ⟨hlt, hj⟩))).2.2
      · have := (apartOne_ok.mp (hap (j, i) ((mem_pairs _ _ _).mpr ⟨hgt, hi⟩))).2.2
        exact fun x hx => this x hx.symm
  · intro h
    have hr : 0 < a.rOut := lt_trans h.rIn h.rOut
    refine ⟨h.ks, h.kg, h.Rfp, h.rIn, h.rOut, h.J, ?_⟩
    have hl : loop (insideOne a) (List.range (2 * a.nPipes)) = .ok () := (loop_ok _ _).mpr fun i hi =>
      (insideOne_ok hr).mpr ⟨lt_of_lt_of_le (List.mem_range.mp hi) h.len, h.inside i (List.mem_range.mp hi)⟩
    rw [hl]
    refine (loop_ok _ _).mpr ?_
    rintro ⟨i, j⟩ hij
    obtain ⟨hlt, hj⟩ := (mem_pairs _ _ _).mp hij
    exact apartOne_ok.mpr ⟨by have := h.len; omega, by have := h.len; omega, h.apart i j (by omega) hj (by omega)⟩

/-- **C43** (messages).  A pipe reported outside of the borehole is outside, and pipes reported as overlapping overlap. -/
theorem checkU_message (a : UArgs) :
    (∀ i, checkU a = .error (.outside i) → ∃ h : i < a.pos.length, ¬ Inside a.pos[i] a.rOut a.rB) ∧
    (∀ i j, checkU a = .error (.overlap i j) → ∃ (h : i < a.pos.length) (h' : j < a.pos.length), i ≠ j ∧ ¬ Apart a.pos[i] a.pos[j] a.rOut) := by
  have hin : ∀ i e, insideOne a i = .error e → e = .index ∨ e = .outside i ∧ ∃ h : i < a.pos.length, ¬ (radius a.pos[i].1 a.pos[i].2 + a.rOut ≤ a.rB) := by
    intro i e h
    unfold insideOne at h
    by_cases hi : i < a.pos.length
    · rw [List.getElem?_eq_getElem hi] at h
      simp only [need_error, reduceCtorEq, and_false, or_false] at h
      exact Or.inr ⟨h.2.symm, hi, h.1⟩
    · rw [List.getElem?_eq_none (by omega)] at h
      simp only [Except.error.injEq] at h
      exact Or.inl h.symm
  have hap : ∀ i j e, apartOne a (i, j) = .error e → e = .index ∨ e = .overlap i j ∧
      ∃ (h : i < a.pos.length) (h' : j < a.pos.length), ¬ Apart a.pos[i] a.pos[j] a.rOut := by
    intro i j e h
    by_cases hi : i < a.pos.length
    · by_cases hj : j < a.pos.length
      · unfold apartOne at h
        rw [List.getElem?_eq_getElem hi, List.getElem?_eq_getElem hj] at h
        simp only [need_error, reduceCtorEq, and_false, or_false] at h
        exact Or.inr ⟨h.2.symm, hi, hj, fun hc => h.1 ((apart_iff _ _ _).mp hc)⟩
      · unfold apartOne at h
        rw [List.getElem?_eq_getElem hi, List.getElem?_eq_none (by omega : a.pos.length ≤ j)] at h
        simp only [Except.error.injEq] at h
        exact Or.inl h.symm
    · unfold apartOne at h
      rw [List.getElem?_eq_none (by omega : a.pos.length ≤ i)] at h
      simp only [Except.error.injEq] at h
      exact Or.inl h.symm
  constructor
  · intro i h
    unfold checkU at h
    simp only [need_error, reduceCtorEq, and_false, false_or] at h
    obtain ⟨h1, h2, h3, h4, h5, h6, h⟩ := h
    have hr : 0 < a.rOut := lt_trans h4 h5
    cases hl : loop (insideOne a) (List.range (2 * a.nPipes)) with
    | error e =>
      rw [hl] at h
      simp only [Except.error.injEq] at h
      subst h
      obtain ⟨j, -, hj⟩ := loop_error hl
      rcases hin j _ hj with hc | ⟨hc, hlen, hout⟩
      · simp at hc
      · simp only [Err.outside.injEq] at hc
        subst hc
        exact ⟨hlen, fun hc => hout ((inside_iff _ hr _).mp hc)⟩
    | ok u =>
      rw [hl] at h
      obtain ⟨⟨k, l⟩, -, hj⟩ := loop_error h
      rcases hap k l _ hj with hc | ⟨hc, -⟩ <;> simp at hc
  · intro i j h
    unfold checkU at h
    simp only [need_error, reduceCtorEq, and_false, false_or] at h
    obtain ⟨h1, h2, h3, h4, h5, h6, h⟩ := h
    cases hl : loop (insideOne a) (List.range (2 * a.nPipes)) with
    | error e =>
      rw [hl] at h
      simp only [Except.error.injEq] at h
      subst h
      obtain ⟨k, -, hj⟩ := loop_error hl
      rcases hin k _ hj with hc | ⟨hc, -⟩ <;> simp at hc
    | ok u =>
      rw [hl] at h
      obtain ⟨⟨k, l⟩, hkl, hj⟩ := loop_error h
      rcases hap k l _ hj with hc | ⟨hc, h', h'', hn⟩
      · simp at hc
      · simp only [Err.overlap.injEq] at hc
        obtain ⟨rfl, rfl⟩ := hc
        have := (mem_pairs _ _ _).mp hkl
        exact ⟨h', h'', by omega, hn⟩

/-- Non-vacuity: an accepted borehole. -/
def sampleU : UArgs := ⟨[(-1 / 20, 0), (1 / 20, 0)], 13 / 1000, 17 / 1000, 3 / 40, 2, 1, 1 / 10, 2, 1⟩

theorem sampleU_ok : checkU sampleU = .ok () := by
  have hr : radius (-1 / 20) 0 = 1 / 20 ∧ radius (1 / 20) 0 = 1 / 20 ∧ radius (-1 / 20 - 1 / 20) (0 - 0) = 1 / 10 := by
    unfold radius
    refine ⟨?_, ?_, ?_⟩ <;> · rw [Real.sqrt_eq_iff_mul_self_eq (by norm_num) (by norm_num)]; norm_num
  unfold checkU
  simp only [need_ok]
  have hl : loop (insideOne sampleU) (List.range (2 * sampleU.nPipes)) = .ok () := by
    rw [loop_ok]
    intro i hi
    have : i < 2 := List.mem_range.mp hi
    interval_cases i
    · exact need_ok.mpr ⟨by show radius (-1 / 20) 0 + 17 / 1000 ≤ 3 / 40; rw [hr.1]; norm_num, rfl⟩
    · exact need_ok.mpr ⟨by show radius (1 / 20) 0 + 17 / 1000 ≤ 3 / 40; rw [hr.2.1]; norm_num, rfl⟩
  refine ⟨by norm_num [sampleU], by norm_num [sampleU], by norm_num [sampleU], by norm_num [sampleU], by norm_num [sampleU], by norm_num [sampleU], ?_⟩
  rw [hl]
  show loop (apartOne sampleU) (pairs (2 * 1)) = .ok ()
  rw [loop_ok]
  rintro ⟨i, j⟩ hij
  obtain ⟨h1, h2⟩ := (mem_pairs _ _ _).mp hij
  obtain rfl : i = 0 := by omega
  obtain rfl : j = 1 := by omega
  exact need_ok.mpr ⟨by show radius (-1 / 20 - 1 / 20) (0 - 0) ≥ 2 * (17 / 1000); rw [hr.2.2]; norm_num, rfl⟩

example : PhysicalU sampleU := (checkU_iff _).mp sampleU_ok

/-- A physical coaxial borehole: positive properties, the inner pipe inside the outer pipe, the outer pipe inside the borehole. -/
structure PhysicalC (a : CArgs) : Prop where
  ks : 0 < a.ks
  kg : 0 < a.kg
  Rff : 0 ≤ a.Rff
  Rfp : 0 < a.Rfp
  rIn : ∀ j, 0 < a.rIn j
  rOut : ∀ j, a.rIn j < a.rOut j
  annulus : ∃ i j, i ≠ j ∧ a.rOut i < a.rIn j
  J : 0 ≤ a.J
  inside : ∀ p ∈ a.pos, ∀ j, Inside p (a.rOut j) a.rB

theorem loopC (a : CArgs) : loop (insideCoax a) ((List.range a.pos.length).zip a.pos) = .ok () ↔
    ∀ p ∈ a.pos, ∃ j, a.rB ≥ radius p.1 p.2 + a.rOut j := by
  rw [loop_ok]
  have hz : ∀ p, p ∈ a.pos ↔ ∃ i, (i, p) ∈ (List.range a.pos.length).zip a.pos := by
    intro p
    constructor
    · intro hp
      obtain ⟨i, hi, rfl⟩ := List.getElem_of_mem hp
      refine ⟨i, ?_⟩
      rw [List.mem_iff_getElem]
      exact ⟨i, by simpa using hi, by simp⟩
    · rintro ⟨i, hi⟩
      exact (List.of_mem_zip hi).2
  constructor
  · intro h p hp
    obtain ⟨i, hi⟩ := (hz p).mp hp
    exact (need_ok.mp (h _ hi)).1
  · rintro h ⟨i, p⟩ hip
    exact need_ok.mpr ⟨h p ((hz p).mpr ⟨i, hip⟩), rfl⟩

/-- The inner and outer pipe by their radii. -/
theorem inner_outer {a : CArgs} (hr : ∀ j, a.rIn j < a.rOut j) {i j : Fin 2} (hij : i ≠ j) (h : a.rOut i < a.rIn j) :
    a.iInner = i ∧ a.iOuter = j := by
  have hlt : a.rOut i < a.rOut j := h.trans (hr j)
  unfold CArgs.iInner CArgs.iOuter
  have hcase : (i = 0 ∧ j = 1) ∨ (i = 1 ∧ j = 0) := by
    fin_cases i <;> fin_cases j <;> simp at hij ⊢
  rcases hcase with ⟨rfl, rfl⟩ | ⟨rfl, rfl⟩
  · exact ⟨if_neg (not_lt.mpr hlt.le), if_pos hlt⟩
  · exact ⟨if_pos hlt, if_neg (not_lt.mpr hlt.le)⟩

/-- **C44** (completeness).  Every physical coaxial geometry is accepted. -/
theorem checkC_complete (a : CArgs) (h : PhysicalC a) : checkC a = .ok () := by
  obtain ⟨i, j, hij, hlt⟩ := h.annulus
  obtain ⟨e1, e2⟩ := inner_outer h.rOut hij hlt
  unfold checkC
  simp only [need_ok, truth_pos, loopC]
  refine ⟨h.ks, h.kg, truth_nonneg _, h.Rfp.ne', fun j => (h.rIn j).ne', h.rOut, by rw [e1, e2]; exact hlt, h.J, ?_⟩
  intro p hp
  exact ⟨0, (inside_iff _ ((h.rIn 0).trans (h.rOut 0)) _).mp (h.inside p hp 0)⟩

/-- **C44** (soundness, partial).  What an accepted coaxial geometry guarantees: the inner pipe is inside the borehole; radii and the resistance are only known
not to be zero.  Missing for the full claim: the outer pipe inside the borehole, positive radii and resistances. -/
theorem checkC_partial (a : CArgs) (h : checkC a = .ok ()) :
    0 < a.ks ∧ 0 < a.kg ∧ a.Rfp ≠ 0 ∧ (∀ j, a.rIn j ≠ 0) ∧ (∀ j, a.rIn j < a.rOut j) ∧ a.rOut a.iInner < a.rIn a.iOuter ∧ 0 ≤ a.J ∧
    ∀ p ∈ a.pos, radius p.1 p.2 + a.rOut a.iInner ≤ a.rB := by
  unfold checkC at h
  simp only [need_ok, truth_pos, loopC] at h
  obtain ⟨h1, h2, -, h4, h5, h6, h7, h8, h⟩ := h
  refine ⟨h1, h2, h4, h5, h6, h7, h8, ?_⟩
  intro p hp
  obtain ⟨j, hj⟩ := h p hp
  have hmin : a.rOut a.iInner ≤ a.rOut j := by
    unfold CArgs.iInner
    split_ifs with hlt
    · fin_cases j
      · exact hlt.le
      · exact le_rfl
    · push Not at hlt
      fin_cases j
      · exact le_rfl
      · exact hlt
  linarith

/-- **C44** (guarded).  With positive radii and resistances and the outer pipe inside the borehole, accepted geometries are physical. -/
theorem checkC_guarded_partial (a : CArgs) (hR : 0 ≤ a.Rff) (hP : 0 ≤ a.Rfp) (hr : ∀ j, 0 ≤ a.rIn j)
    (hout : ∀ p ∈ a.pos, radius p.1 p.2 + a.rOut a.iOuter ≤ a.rB) : checkC a = .ok () ↔ PhysicalC a := by
  refine ⟨fun h => ?_, checkC_complete a⟩
  obtain ⟨h1, h2, h3, h4, h5, h6, h7, -⟩ := checkC_partial a h
  have hrin : ∀ j, 0 < a.rIn j := fun j => lt_of_le_of_ne (hr j) (h4 j).symm
  refine ⟨h1, h2, hR, lt_of_le_of_ne hP h3.symm, hrin, h5, ⟨a.iInner, a.iOuter, ?_, h6⟩, h7, ?_⟩
  · intro hc
    rw [hc] at h6
    exact absurd (h5 a.iOuter) (not_lt.mpr h6.le)
  · intro p hp j
    rw [inside_iff _ ((hrin j).trans (h5 j))]
    have hmax : a.rOut j ≤ a.rOut a.iOuter := by
      unfold CArgs.iOuter
      split_ifs with hlt
      · fin_cases j
        · exact le_of_lt hlt
        · exact le_rfl
      · push Not at hlt
        fin_cases j
        · exact le_rfl
        · exact hlt
    have := hout p hp
    linarith

/-- Coaxial boreholes at the centre with the given borehole radius, resistances and inner radius of the inner pipe. -/
def sampleC (rB Rff Rfp r : ℝ) : CArgs := ⟨[(0, 0)], fun j => if j = 0 then r else 5, fun j => if j = 0 then 3 else 6, rB, 2, 1, Rff, Rfp, 2⟩

theorem sampleC_ok {rB Rff Rfp r : ℝ} (hB : 3 ≤ rB) (hP : Rfp ≠ 0) (hr : r < 3) (hr0 : r ≠ 0) : checkC (sampleC rB Rff Rfp r) = .ok () := by
  have h0 : radius 0 0 = 0 := by unfold radius; norm_num
  have e1 : (sampleC rB Rff Rfp r).iInner = 0 := by unfold CArgs.iInner sampleC; norm_num
  have e2 : (sampleC rB Rff Rfp r).iOuter = 1 := by unfold CArgs.iOuter sampleC; norm_num
  unfold checkC
  simp only [need_ok, truth_pos, loopC]
  refine ⟨by norm_num [sampleC], by norm_num [sampleC], truth_nonneg _, hP, fun j => ?_, fun j => ?_, by rw [e1, e2]; norm_num [sampleC], by norm_num [sampleC], ?_⟩
  · fin_cases j
    · exact hr0
    · norm_num [sampleC]
  · fin_cases j
    · exact hr
    · norm_num [sampleC]
  intro p hp
  simp only [sampleC, List.mem_singleton] at hp ⊢
  subst hp
  exact ⟨0, by simp [h0]; exact hB⟩

/-- Non-vacuity of the guarded theorem. -/
example : PhysicalC (sampleC 7 1 1 2) := by
  refine (checkC_guarded_partial _ (by norm_num [sampleC]) (by norm_num [sampleC]) (fun j => by fin_cases j <;> norm_num [sampleC]) ?_).mp
    (sampleC_ok (by norm_num) (by norm_num) (by norm_num) (by norm_num))
  intro p hp
  have h0 : radius 0 0 = 0 := by unfold radius; norm_num
  have e2 : (sampleC 7 1 1 2).iOuter = 1 := by unfold CArgs.iOuter sampleC; norm_num
  rw [e2]
  simp only [sampleC, List.mem_singleton] at hp ⊢
  subst hp
  norm_num [h0]

/-- **C44** (violation).  The check accepts an outer pipe outside of the borehole, negative resistances and a negative inner radius. -/
theorem checkC_fails :
    (∃ a : CArgs, checkC a = .ok () ∧ ∃ p ∈ a.pos, ¬ Inside p (a.rOut a.iOuter) a.rB) ∧
    (∃ a : CArgs, checkC a = .ok () ∧ a.Rff < 0) ∧ (∃ a : CArgs, checkC a = .ok () ∧ a.Rfp < 0) ∧
    (∃ a : CArgs, checkC a = .ok () ∧ ∃ j, a.rIn j < 0) := by
  refine ⟨⟨sampleC 4 1 1 2, sampleC_ok (by norm_num) (by norm_num) (by norm_num) (by norm_num), (0, 0), by simp [sampleC], ?_⟩,
    ⟨sampleC 7 (-1) 1 2, sampleC_ok (by norm_num) (by norm_num) (by norm_num) (by norm_num), by norm_num [sampleC]⟩,
    ⟨sampleC 7 1 (-1) 2, sampleC_ok (by norm_num) (by norm_num) (by norm_num) (by norm_num), by norm_num [sampleC]⟩,
    ⟨sampleC 7 1 1 (-2), sampleC_ok (by norm_num) (by norm_num) (by norm_num) (by norm_num), 0, by norm_num [sampleC]⟩⟩
  have h0 : radius 0 0 = 0 := by unfold radius; norm_num
  have e2 : (sampleC 4 1 1 2).iOuter = 1 := by unfold CArgs.iOuter sampleC; norm_num
  rw [e2, inside_iff _ (by norm_num [sampleC])]
  simp [sampleC, h0]
  norm_num

end Verif.Pipe.Geom
