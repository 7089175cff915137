import Verif.Pipe.DrawModel
import Verif.Pipe.GeomProps

/-!
# Property C162: the cross-section of a borehole shows its pipes
-/

noncomputable section

namespace Verif.Pipe.Geom

/-- Outlines drawn for a pipe with U-tubes. -/
def outlines (a : UArgs) (is : List ℕ) : List Circle :=
  is.flatMap fun i => [⟨a.pos.getD i 0, a.rIn⟩, ⟨a.pos.getD i 0, a.rOut⟩,
    ⟨a.pos.getD (i + a.nPipes) 0, a.rIn⟩, ⟨a.pos.getD (i + a.nPipes) 0, a.rOut⟩]

/-- Labels drawn for a pipe with U-tubes. -/
def numbers (a : UArgs) (is : List ℕ) : List ((ℝ × ℝ) × ℕ) :=
  is.flatMap fun i => [(a.pos.getD i 0, i), (a.pos.getD (i + a.nPipes) 0, i + a.nPipes)]

theorem draw_fold (a : UArgs) (colors : ℕ) (hl : 2 * a.nPipes ≤ a.pos.length) (is : List ℕ) (d : Drawing)
    (hi : ∀ i ∈ is, i < a.nPipes) (hc : ∀ i ∈ is, i < colors) : is.foldlM (drawPair a colors) d =
      some ⟨d.wall, d.pipes ++ outlines a is, d.labels ++ numbers a is⟩ := by
  induction is generalizing d with
  | nil => simp [outlines, numbers]
  | cons i is ih =>
    have h := hi i (by simp)
    have h1 : i < a.pos.length := by omega
    have h2 : i + a.nPipes < a.pos.length := by omega
    rw [List.foldlM_cons]
    have e : drawPair a colors d i = some { d with
        pipes := d.pipes ++ outlines a [i], labels := d.labels ++ numbers a [i] } := by
      unfold drawPair outlines numbers
      rw [List.getElem?_eq_getElem h1, List.getElem?_eq_getElem h2]
      simp [hc i (by simp), h1, h2]
    rw [e]
    simp only [Option.bind_eq_bind, Option.bind_some]
    rw [ih _ (fun j hj => hi j (by simp [hj])) (fun j hj => hc j (by simp [hj]))]
    simp [outlines, numbers]

theorem drawU_eq (a : UArgs) (colors : ℕ) (hl : 2 * a.nPipes ≤ a.pos.length) (hc : a.nPipes ≤ colors) :
    drawU a colors = some ⟨⟨(0, 0), a.rB⟩, outlines a (List.range a.nPipes), numbers a (List.range a.nPipes)⟩ := by
  unfold drawU
  rw [draw_fold a colors hl _ _ (fun i hi => List.mem_range.mp hi) (fun i hi => (List.mem_range.mp hi).trans_le hc)]
  simp

/-- A pipe of an accepted borehole. -/
def pipeAt (a : UArgs) (i : ℕ) : ℝ × ℝ := a.pos.getD i 0

theorem mem_outlines {a : UArgs} {c : Circle} : c ∈ outlines a (List.range a.nPipes) ↔
    ∃ i < 2 * a.nPipes, c.centre = pipeAt a i ∧ (c.r = a.rIn ∨ c.r = a.rOut) := by
  unfold outlines pipeAt
  simp only [List.mem_flatMap, List.mem_range, List.mem_cons, List.not_mem_nil, or_false]
  constructor
  · rintro ⟨i, hi, h | h | h | h⟩ <;> subst h
    · exact ⟨i, by omega, rfl, Or.inl rfl⟩
    · exact ⟨i, by omega, rfl, Or.inr rfl⟩
    · exact ⟨i + a.nPipes, by omega, rfl, Or.inl rfl⟩
    · exact ⟨i + a.nPipes, by omega, rfl, Or.inr rfl⟩
  · rintro ⟨i, hi, h1, h2⟩
    obtain ⟨p, r⟩ := c
    dsimp only at h1 h2
    subst h1
    by_cases h : i < a.nPipes
    · refine ⟨i, h, ?_⟩
      rcases h2 with rfl | rfl <;> simp
    · have e : i = i - a.nPipes + a.nPipes := by omega
      refine ⟨i - a.nPipes, by omega, ?_⟩
      rw [← e]
      rcases h2 with rfl | rfl <;> simp

theorem mem_numbers {a : UArgs} {l : (ℝ × ℝ) × ℕ} : l ∈ numbers a (List.range a.nPipes) ↔
    l.2 < 2 * a.nPipes ∧ l.1 = pipeAt a l.2 := by
  unfold numbers pipeAt
  simp only [List.mem_flatMap, List.mem_range, List.mem_cons, List.not_mem_nil, or_false]
  obtain ⟨p, k⟩ := l
  simp only [Prod.mk.injEq]
  constructor
  · rintro ⟨i, hi, ⟨rfl, rfl⟩ | ⟨rfl, rfl⟩⟩
    · exact ⟨by omega, rfl⟩
    · exact ⟨by omega, rfl⟩
  · rintro ⟨hi, h⟩
    by_cases hk : k < a.nPipes
    · exact ⟨k, hk, Or.inl ⟨h, rfl⟩⟩
    · refine ⟨k - a.nPipes, by omega, Or.inr ⟨?_, by omega⟩⟩
      rw [show k - a.nPipes + a.nPipes = k by omega]
      exact h

theorem numbers_length (a : UArgs) (is : List ℕ) : (numbers a is).length = 2 * is.length := by
  induction is with
  | nil => rfl
  | cons i is ih =>
    have : numbers a (i :: is) = [(a.pos.getD i 0, i), (a.pos.getD (i + a.nPipes) 0, i + a.nPipes)] ++ numbers a is := rfl
    rw [this, List.length_append, ih]
    simp; omega

/-- **C162** (U-tubes, partial).  The cross-section of every borehole that can be created shows the wall, and the two
outlines of each pipe and nothing else, all inside the wall; each pipe has one label, its number, which is inside the
outline of its own pipe and outside of those of the other pipes.  Missing: more U-tubes than colours, see
`section_colors_fails`. -/
theorem section_u_partial (a : UArgs) (h : checkU a = .ok ()) (colors : ℕ) (hc : a.nPipes ≤ colors) :
    ∃ d, drawU a colors = some d ∧ d.wall = ⟨(0, 0), a.rB⟩ ∧
      (∀ c, c ∈ d.pipes ↔ ∃ i < 2 * a.nPipes, c.centre = pipeAt a i ∧ (c.r = a.rIn ∨ c.r = a.rOut)) ∧
      (∀ c ∈ d.pipes, Inside c.centre c.r d.wall.r) ∧
      d.labels.length = 2 * a.nPipes ∧
      (∀ i < 2 * a.nPipes, (pipeAt a i, i) ∈ d.labels) ∧
      (∀ l ∈ d.labels, l.2 < 2 * a.nPipes ∧ ∀ i < 2 * a.nPipes,
        (‖pt l.1 - pt (pipeAt a i)‖ < a.rIn ↔ i = l.2) ∧ (‖pt l.1 - pt (pipeAt a i)‖ < a.rOut ↔ i = l.2)) := by
  have hp := (checkU_iff a).mp h
  have hr := hp.rIn
  have hr' := hp.rOut
  have hd := drawU_eq a colors hp.len hc
  have hpos : ∀ i (hi : i < 2 * a.nPipes), pipeAt a i = a.pos[i]'(lt_of_lt_of_le hi hp.len) := fun i hi => by
    unfold pipeAt
    rw [List.getD_eq_getElem _ _ (lt_of_lt_of_le hi hp.len)]
  refine ⟨_, hd, rfl, fun c => mem_outlines, ?_, ?_, ?_, ?_⟩
  · intro c hm
    obtain ⟨i, hi, h1, h2⟩ := mem_outlines.mp hm
    have hin := hp.inside i hi
    rw [← hpos i hi] at hin
    rw [h1]
    intro x hx
    exact hin x (by rcases h2 with h2 | h2 <;> rw [h2] at hx <;> linarith)
  · rw [numbers_length, List.length_range]
  · exact fun i hi => mem_numbers.mpr ⟨hi, rfl⟩
  · intro l hl
    obtain ⟨h1, h2⟩ := mem_numbers.mp hl
    refine ⟨h1, fun i hi => ?_⟩
    have key : i ≠ l.2 → 2 * a.rOut ≤ ‖pt l.1 - pt (pipeAt a i)‖ := by
      intro hne
      have := hp.apart l.2 i h1 hi (Ne.symm hne)
      rw [← hpos _ h1, ← hpos i hi, apart_iff, radius_dist] at this
      rw [h2]
      exact this
    refine ⟨⟨fun hlt => ?_, fun e => ?_⟩, ⟨fun hlt => ?_, fun e => ?_⟩⟩
    · by_contra hne
      have := key hne
      linarith
    · rw [e, h2, sub_self, norm_zero]; exact hr
    · by_contra hne
      have := key hne
      linarith
    · rw [e, h2, sub_self, norm_zero]; linarith

/-- Non-vacuity. -/
example : ∃ d, drawU sampleU 10 = some d ∧ d.labels.length = 2 := by
  obtain ⟨d, h1, -, -, -, h2, -⟩ := section_u_partial sampleU sampleU_ok 10 (by decide)
  exact ⟨d, h1, h2⟩

/-- Pipes in a row. -/
def row (n : ℕ) : UArgs :=
  ⟨(List.range (2 * n)).map fun i : ℕ => (3 * (i : ℝ), 0), 1 / 2, 1, 6 * n + 1, 2, 1, 1, 2, n⟩

theorem row_ok (n : ℕ) : checkU (row n) = .ok () := by
  have hl : (row n).pos.length = 2 * n := by simp [row]
  have hg : ∀ i (h : i < (row n).pos.length), (row n).pos[i] = (3 * (i : ℝ), 0) := fun i h => by simp [row]
  refine (checkU_iff _).mpr ⟨by norm_num [row], by norm_num [row], by norm_num [row], by norm_num [row], by norm_num [row],
    by norm_num [row], by rw [hl]; exact le_rfl, ?_, ?_⟩
  · intro i hi
    have hi' : i < 2 * n := hi
    rw [hg i (by rw [hl]; exact hi), inside_iff _ (by norm_num [row])]
    have : radius (3 * (i : ℝ)) 0 = 3 * i := by
      unfold radius
      rw [show (3 * (i : ℝ)) ^ 2 + 0 ^ 2 = (3 * i) ^ 2 by ring]
      exact Real.sqrt_sq (by positivity)
    dsimp only
    rw [this]
    have hc : (i : ℝ) ≤ 2 * n := by exact_mod_cast hi'.le
    show 3 * (i : ℝ) + 1 ≤ 6 * n + 1
    linarith
  · intro i j hi hj hij
    rw [hg i (by rw [hl]; exact hi), hg j (by rw [hl]; exact hj), apart_iff]
    dsimp only
    have e : radius (3 * (i : ℝ) - 3 * j) (0 - 0) = 3 * |(i : ℝ) - j| := by
      unfold radius
      rw [show (3 * (i : ℝ) - 3 * j) ^ 2 + (0 - 0) ^ 2 = (3 * ((i : ℝ) - j)) ^ 2 by ring, Real.sqrt_sq_eq_abs, abs_mul]
      norm_num
    rw [e]
    have hne : (1 : ℝ) ≤ |(i : ℝ) - j| := by
      have : (1 : ℤ) ≤ |(i : ℤ) - j| := Int.one_le_abs (by omega)
      exact_mod_cast this
    show 3 * |(i : ℝ) - j| ≥ 2 * 1
    linarith

/-- **C162** (violated).  Whatever the number of colours of the cycle (ten by default), there are boreholes that can be
created and whose cross-section cannot be drawn. -/
theorem section_colors_fails (colors : ℕ) : ∃ a, checkU a = .ok () ∧ drawU a colors = none := by
  refine ⟨row (colors + 1), row_ok _, ?_⟩
  have hl : (row (colors + 1)).pos.length = 2 * (colors + 1) := by simp [row]
  have hn : (row (colors + 1)).nPipes = colors + 1 := rfl
  unfold drawU
  rw [hn, List.range_succ, List.foldlM_append,
    draw_fold _ _ (by rw [hl, hn]) _ _ (fun i hi => by have := List.mem_range.mp hi; omega)
      (fun i hi => List.mem_range.mp hi)]
  simp only [Option.bind_eq_bind, Option.bind_some, List.foldlM_cons, List.foldlM_nil]
  have : ∀ d, drawPair (row (colors + 1)) colors d colors = none := by
    intro d
    unfold drawPair
    split <;> simp
  rw [this]
  rfl

/-! ### Coaxial pipes -/

/-- Specification: the label is where the fluid of pipe `i` flows: inside the inner pipe, or between the two pipes. -/
def InPipe (a : CArgs) (p l : ℝ × ℝ) (i : Fin 2) : Prop :=
  if i = a.iInner then ‖pt l - pt p‖ < a.rIn i
  else a.rOut a.iInner < ‖pt l - pt p‖ ∧ ‖pt l - pt p‖ < a.rIn i

/-- Specification: position of a label in a figure with one position. -/
def labelOf (d : Drawing) (k : ℕ) : Option (ℝ × ℝ) := (d.labels.find? fun l => l.2 == k).map (·.1)

theorem drawC_one (a : CArgs) (p : ℝ × ℝ) (hp : a.pos = [p]) (colors : ℕ) (hc : 0 < colors) :
    drawC a colors = drawCoax a ⟨⟨(0, 0), a.rB⟩, [], []⟩ (p, 0) := by
  unfold drawC
  obtain ⟨k, rfl⟩ : ∃ k, colors = k + 1 := ⟨colors - 1, by omega⟩
  rw [hp]
  simp

theorem shift_norm (p : ℝ × ℝ) {d : ℝ} (hd : 0 ≤ d) : ‖pt (p.1 + d, p.2) - pt p‖ = d := by
  have : pt (p.1 + d, p.2) - pt p = (d : ℂ) := by
    apply Complex.ext <;> simp [pt]
  rw [this, Complex.norm_real, Real.norm_of_nonneg hd]

theorem iInner_cases (a : CArgs) : a.iInner = 0 ∨ a.iInner = 1 := by
  rcases a.iInner with ⟨k, hk⟩
  interval_cases k
  · exact Or.inl rfl
  · exact Or.inr rfl

/-- **C162** (coaxial, partial).  The cross-section of a physical coaxial borehole shows the wall and the four outlines,
inside the wall.  The label of the inner pipe is inside of it, whichever pipe is the inner one.  The label of the outer
pipe is between the pipes if the inner pipe is the first one; if it is the second one, this needs
`2 r_out[1] < r_out[0] + r_in[1] < 2 r_in[0]`. -/
theorem section_c_partial (a : CArgs) (h : PhysicalC a) (p : ℝ × ℝ) (hp : a.pos = [p]) (colors : ℕ) (hc : 0 < colors) :
    (drawC a colors).wall = ⟨(0, 0), a.rB⟩ ∧
    (∀ c, c ∈ (drawC a colors).pipes ↔ c.centre = p ∧ ∃ i, c.r = a.rIn i ∨ c.r = a.rOut i) ∧
    (∀ c ∈ (drawC a colors).pipes, Inside c.centre c.r (drawC a colors).wall.r) ∧
    ∃ l : Fin 2 → ℝ × ℝ, (∀ i : Fin 2, labelOf (drawC a colors) (i : ℕ) = some (l i)) ∧ InPipe a p (l a.iInner) a.iInner ∧
      (InPipe a p (l a.iOuter) a.iOuter ↔
        a.iInner = 0 ∨ 2 * a.rOut 1 < a.rOut 0 + a.rIn 1 ∧ a.rOut 0 + a.rIn 1 < 2 * a.rIn 0) := by
  obtain ⟨i, j, hij, hlt⟩ := h.annulus
  obtain ⟨e1, e2⟩ := inner_outer h.rOut hij hlt
  have r0 := h.rIn 0
  have r1 := h.rIn 1
  have o0 := h.rOut 0
  have o1 := h.rOut 1
  have hmem : ∀ c, c ∈ (drawC a colors).pipes ↔ c.centre = p ∧ ∃ i, c.r = a.rIn i ∨ c.r = a.rOut i := by
    rw [drawC_one a p hp colors hc]
    rintro ⟨q, r⟩
    simp only [drawCoax, List.nil_append, List.mem_cons, Circle.mk.injEq, List.not_mem_nil, or_false, Fin.exists_fin_two]
    tauto
  refine ⟨by rw [drawC_one a p hp colors hc]; rfl, hmem, ?_, ?_⟩
  · intro c hm
    obtain ⟨h1, k, h2⟩ := (hmem c).mp hm
    have hin := h.inside p (by rw [hp]; simp) k
    have := h.rOut k
    rw [h1, drawC_one a p hp colors hc]
    intro x hx
    exact hin x (by rcases h2 with h2 | h2 <;> rw [h2] at hx <;> linarith)
  · rw [drawC_one a p hp colors hc]
    have hd : 0 ≤ (0.5 : ℝ) * (a.rOut 0 + a.rIn 1) := by norm_num; linarith
    have hs := shift_norm p hd
    have hz : ‖pt p - pt p‖ = 0 := by simp
    rcases iInner_cases a with hi | hi
    · have hj : a.iOuter = 1 := by
        rw [e2]; rw [hi] at e1
        rcases Fin.exists_fin_two.mp ⟨j, rfl⟩ with hj | hj
        · exact absurd (e1.symm.trans hj.symm) hij
        · exact hj
      rw [← e1, ← e2, hi, hj] at hlt
      refine ⟨fun k => if k = 0 then p else (p.1 + 0.5 * (a.rOut 0 + a.rIn 1), p.2), ?_, ?_, ?_⟩
      · intro k
        fin_cases k <;> simp [labelOf, drawCoax, hi]
      · unfold InPipe
        rw [hi]; simp [r0]
      · unfold InPipe
        rw [hj, hi]
        simp only [one_ne_zero, if_false, hs, true_or, iff_true]
        constructor <;> norm_num <;> linarith
    · have hj : a.iOuter = 0 := by
        rw [e2]; rw [hi] at e1
        rcases Fin.exists_fin_two.mp ⟨j, rfl⟩ with hj | hj
        · exact hj
        · exact absurd (e1.symm.trans hj.symm) hij
      refine ⟨fun k => if k = 0 then (p.1 + 0.5 * (a.rOut 0 + a.rIn 1), p.2) else p, ?_, ?_, ?_⟩
      · intro k
        fin_cases k <;> simp [labelOf, drawCoax, hi]
      · unfold InPipe
        rw [hi]; simp [r1]
      · unfold InPipe
        rw [hj, hi]
        simp only [zero_ne_one, one_ne_zero, if_false, if_true, hs, false_or]
        norm_num
        constructor
        · rintro ⟨h1, h2⟩; constructor <;> linarith
        · rintro ⟨h1, h2⟩; constructor <;> linarith

/-- A coaxial borehole with the outer pipe first. -/
def outerFirst (r : ℝ) : CArgs :=
  ⟨[(0, 0)], fun j => if j = 0 then 5 else 1, fun j => if j = 0 then 6 else r, 7, 2, 1, 1, 1, 2⟩

theorem outerFirst_physical {r : ℝ} (h1 : 1 < r) (h2 : r < 5) : PhysicalC (outerFirst r) := by
  refine ⟨by norm_num [outerFirst], by norm_num [outerFirst], by norm_num [outerFirst], by norm_num [outerFirst],
    fun j => ?_, fun j => ?_, ⟨1, 0, by decide, by simpa [outerFirst] using h2⟩, by norm_num [outerFirst], ?_⟩
  · fin_cases j <;> norm_num [outerFirst]
  · fin_cases j
    · norm_num [outerFirst]
    · simpa [outerFirst] using h1
  · intro p hp j
    have : p = (0, 0) := by simpa [outerFirst] using hp
    subst this
    have h0 : radius 0 0 = 0 := by unfold radius; norm_num
    fin_cases j
    · rw [inside_iff _ (by norm_num [outerFirst])]; norm_num [outerFirst, h0]
    · rw [inside_iff _ (by simp [outerFirst]; linarith)]; simp [outerFirst, h0]; linarith

theorem outerFirst_inner {r : ℝ} (h2 : r < 5) : (outerFirst r).iInner = 1 ∧ (outerFirst r).iOuter = 0 := by
  unfold CArgs.iInner CArgs.iOuter outerFirst
  dsimp only
  norm_num
  exact ⟨by linarith, by linarith⟩

/-- **C162** (violated).  With the outer pipe first, the label of the outer pipe may be drawn in the wall of the inner
pipe. -/
theorem section_label_fails : ∃ a, PhysicalC a ∧ checkC a = .ok () ∧ a.pos = [(0, 0)] ∧
    ∃ l, labelOf (drawC a 10) (a.iOuter : ℕ) = some l ∧ ¬ InPipe a (0, 0) l a.iOuter ∧
      a.rIn a.iInner < ‖pt l - pt (0, 0)‖ ∧ ‖pt l - pt (0, 0)‖ < a.rOut a.iInner := by
  have hp := outerFirst_physical (r := 4) (by norm_num) (by norm_num)
  obtain ⟨e1, e2⟩ := outerFirst_inner (r := 4) (by norm_num)
  have hs := shift_norm (0, 0) (d := 7 / 2) (by norm_num)
  refine ⟨outerFirst 4, hp, checkC_complete _ hp, rfl, (0 + 7 / 2, 0), ?_, ?_, ?_, ?_⟩
  · rw [drawC_one _ (0, 0) rfl 10 (by norm_num), e2]
    simp only [labelOf, drawCoax, e1]
    norm_num [outerFirst]
  · unfold InPipe
    rw [e2, e1, hs]
    norm_num [outerFirst]
  · rw [e1, hs]; norm_num [outerFirst]
  · rw [e1, hs]; norm_num [outerFirst]

/-- Non-vacuity of the partial theorem with the outer pipe first and a label between the pipes. -/
example : PhysicalC (outerFirst 2) ∧ 2 * (outerFirst 2).rOut 1 < (outerFirst 2).rOut 0 + (outerFirst 2).rIn 1 ∧
    (outerFirst 2).rOut 0 + (outerFirst 2).rIn 1 < 2 * (outerFirst 2).rIn 0 :=
  ⟨outerFirst_physical (by norm_num) (by norm_num), by norm_num [outerFirst], by norm_num [outerFirst]⟩

end Verif.Pipe.Geom
