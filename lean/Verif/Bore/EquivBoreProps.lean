import Verif.Bore.EquivBoreModel
import Verif.Bore.SegmentsProps

/-!
# Property C109: an equivalent borehole stands for the boreholes it was made from
-/

noncomputable section

namespace Verif.Bore

/-- Specification: the boreholes an equivalent borehole stands for. -/
def EquivBore.members (e : EquivBore) : List Borehole :=
  ((e.x.zip e.y).zip e.orientation).map fun p => Borehole.new e.H e.D e.rb p.1.1 p.1.2 e.tilt p.2

/-- One position and one orientation per borehole; vertical boreholes have orientation zero. -/
structure EquivBore.WF (e : EquivBore) : Prop where
  y : e.y.length = e.x.length
  o : e.orientation.length = e.x.length
  vertical : ¬ tilted e.tilt → ∀ o ∈ e.orientation, o = 0

/-- Specification: boreholes of the same dimensions. -/
def Same (b c : Borehole) : Prop := c.H = b.H ∧ c.D = b.D ∧ c.rb = b.rb ∧ c.tilt = b.tilt

/-- Specification: equivalent boreholes of the same dimensions. -/
def SameE (b c : EquivBore) : Prop := c.H = b.H ∧ c.D = b.D ∧ c.rb = b.rb ∧ c.tilt = b.tilt

/-! ### Construction -/

theorem members_zip (b : Borehole) (l : List Borehole) (h : ∀ c ∈ l, Same b c ∧ WF c) :
    (((l.map Borehole.x).zip (l.map Borehole.y)).zip (l.map Borehole.orientation)).map (fun p => Borehole.new b.H b.D b.rb p.1.1 p.1.2 b.tilt p.2) = l := by
  induction l with
  | nil => rfl
  | cons c l ih =>
    obtain ⟨⟨h1, h2, h3, h4⟩, hw⟩ := h c (by simp)
    simp only [List.map_cons, List.zip_cons_cons]
    rw [ih fun d hd => h d (List.mem_cons_of_mem _ hd), ← h1, ← h2, ← h3, ← h4, new_self c hw]

/-- **C109** (from boreholes).  The equivalent borehole of boreholes of the same dimensions stands for these boreholes, in the same order. -/
theorem equivalent_of_boreholes {b : Borehole} {l : List Borehole} (h : ∀ c ∈ b :: l, Same b c ∧ WF c) :
    ∃ e, EquivBore.new (.boreholes (b :: l)) = .ok e ∧ e.WF ∧ e.members = b :: l ∧ e.nBoreholes = (b :: l).length := by
  refine ⟨_, rfl, ⟨by simp, by simp, ?_⟩, members_zip b (b :: l) h, by simp [EquivBore.nBoreholes]⟩
  intro ht o ho
  obtain ⟨c, hc, rfl⟩ := List.mem_map.mp ho
  obtain ⟨⟨-, -, -, h4⟩, hw⟩ := h c hc
  exact hw (by rw [h4]; exact ht)

theorem zip_flatMap_same {α β γ : Type*} (l : List γ) (f : γ → List α) (g : γ → List β) (h : ∀ c ∈ l, (g c).length = (f c).length) :
    (l.flatMap f).zip (l.flatMap g) = l.flatMap fun c => (f c).zip (g c) := by
  induction l with
  | nil => rfl
  | cons c l ih =>
    simp only [List.flatMap_cons]
    rw [List.zip_append (h c (by simp)).symm, ih fun d hd => h d (List.mem_cons_of_mem _ hd)]

theorem length_flatMap_same {α β γ : Type*} (l : List γ) (f : γ → List α) (g : γ → List β) (h : ∀ c ∈ l, (g c).length = (f c).length) :
    (l.flatMap g).length = (l.flatMap f).length := by
  induction l with
  | nil => rfl
  | cons c l ih => simp only [List.flatMap_cons, List.length_append]; rw [h c (by simp), ih fun d hd => h d (List.mem_cons_of_mem _ hd)]

/-- **C109** (from equivalent boreholes).  The equivalent borehole of equivalent boreholes of the same dimensions stands for all their boreholes. -/
theorem equivalent_of_equivalents {e : EquivBore} {l : List EquivBore} (h : ∀ c ∈ e :: l, SameE e c ∧ c.WF) :
    ∃ m, EquivBore.new (.equivalents (e :: l)) = .ok m ∧ m.WF ∧ m.members = (e :: l).flatMap EquivBore.members ∧ m.nBoreholes = ((e :: l).map EquivBore.nBoreholes).sum := by
  refine ⟨_, rfl, ⟨length_flatMap_same _ _ _ fun c hc => (h c hc).2.y, length_flatMap_same _ _ _ fun c hc => (h c hc).2.o, ?_⟩, ?_, ?_⟩
  · intro ht o ho
    obtain ⟨c, hc, hco⟩ := List.mem_flatMap.mp ho
    obtain ⟨⟨-, -, -, h4⟩, hw⟩ := h c hc
    exact hw.vertical (by rw [h4]; exact ht) o hco
  · unfold EquivBore.members
    rw [zip_flatMap_same _ _ _ fun c hc => (h c hc).2.y, zip_flatMap_same _ _ _ fun c hc => by rw [(h c hc).2.o, List.length_zip, (h c hc).2.y, min_self], List.map_flatMap]
    apply List.flatMap_congr
    intro c hc
    obtain ⟨⟨h1, h2, h3, h4⟩, -⟩ := h c hc
    rw [h1, h2, h3, h4]
  · simp only [EquivBore.nBoreholes, List.length_flatMap]
    rfl

/-- **C109** (from tuples).  The documented tuple of seven attributes is accepted. -/
theorem equivalent_of_tuple_partial (H D rb tilt : ℝ) (x y o : List ℝ) : ∃ e, EquivBore.new (.tuple7 H D rb x y tilt o) = .ok e ∧
    e.members = ((x.zip y).zip o).map fun p => Borehole.new H D rb p.1.1 p.1.2 tilt p.2 := ⟨_, rfl, rfl⟩

/-- **C109** (violated).  The tuple without tilt and orientation, which the documentation gives as the usual one, is never accepted. -/
theorem equivalent_short_tuple_fails (H D rb : ℝ) (x y : List ℝ) : EquivBore.new (.tuple5 H D rb x y) = .error .attribute := rfl

/-! ### Segments and distances -/

theorem members_segmentAt {e : EquivBore} (h : e.WF) (z ρ : ℝ) : ∃ s, e.segmentAt z ρ = .ok s ∧ s.WF ∧ s.members = e.members.map fun b => b.segmentAt z ρ := by
  refine ⟨_, rfl, ⟨by simp [h.y, h.o], by simp [h.o], h.vertical⟩, ?_⟩
  unfold EquivBore.members
  obtain ⟨H, D, rb, x, y, tilt, o⟩ := e
  obtain ⟨hy, ho, hv⟩ := h
  dsimp only at hy ho hv ⊢
  induction x generalizing y o with
  | nil => simp
  | cons a x ih =>
    cases y with
    | nil => simp at hy
    | cons b y =>
      cases o with
      | nil => simp at ho
      | cons c o =>
        simp only [List.zipWith_cons_cons, List.zip_cons_cons, List.map_cons, List.cons.injEq]
        refine ⟨?_, ih y o (by simpa using hy) (by simpa using ho) fun ht d hd => hv ht d (List.mem_cons_of_mem _ hd)⟩
        by_cases ht : tilted tilt
        · simp [Borehole.segmentAt, Borehole.new, ht]
        · simp [Borehole.segmentAt, Borehole.new, ht, hv ht c (by simp)]

theorem members_H {e : EquivBore} {b : Borehole} (hb : b ∈ e.members) : b.H = e.H := by
  obtain ⟨p, -, rfl⟩ := List.mem_map.mp hb
  rfl

theorem segments_aux {e : EquivBore} (h : e.WF) (l : List (ℝ × ℝ)) : ∃ ss, l.mapM (fun p => e.segmentAt p.1 p.2) = .ok ss ∧ ss.length = l.length ∧ (∀ s ∈ ss, s.WF) ∧
    ∀ i (hi : i < l.length) (hi' : i < ss.length), (ss[i]).members = e.members.map fun b => b.segmentAt l[i].1 l[i].2 := by
  induction l with
  | nil => exact ⟨[], rfl, rfl, by simp, fun i hi => by simp at hi⟩
  | cons p l ih =>
    obtain ⟨ss, hss, hlen, hw, hm⟩ := ih
    obtain ⟨s, hs, hsw, hsm⟩ := members_segmentAt h p.1 p.2
    refine ⟨s :: ss, ?_, by simp [hlen], ?_, ?_⟩
    · rw [List.mapM_cons, hs, hss]
      rfl
    · simpa using ⟨hsw, hw⟩
    · intro i hi hi'
      cases i with
      | zero => simpa using hsm
      | succ i => simpa using hm i (by simpa using hi) (by simpa using hi')

/-- **C109** (segments).  Splitting an equivalent borehole splits each of its boreholes: the `i`-th segment stands for the `i`-th segments of the boreholes. -/
theorem equivalent_segments {e : EquivBore} (h : e.WF) (rs : List ℝ) : ∃ ss, e.segments rs = .ok ss ∧ ss.length = rs.length ∧ (∀ s ∈ ss, s.WF) ∧
    ∀ i (hi : i < ss.length), (ss[i]).members.map some = e.members.map fun b => (b.segments rs)[i]? := by
  obtain ⟨ss, hss, hlen, hw, hm⟩ := segments_aux h (List.zipWith (fun z ρ => (z, ρ)) (e.edges rs).dropLast rs)
  have hl : (List.zipWith (fun z ρ => (z, ρ)) (e.edges rs).dropLast rs).length = rs.length := by
    simp [EquivBore.edges, cumsum_length]
  refine ⟨ss, hss, hlen.trans hl, hw, fun i hi => ?_⟩
  have hi' : i < rs.length := by rw [← hl, ← hlen]; exact hi
  rw [hm i (by rw [hl]; exact hi') hi, List.map_map]
  apply List.map_congr_left
  intro b hb
  have he : b.edges rs = e.edges rs := by rw [Borehole.edges, EquivBore.edges, members_H hb]
  have hd : i < (e.edges rs).dropLast.length := by simp [EquivBore.edges, cumsum_length]; exact hi'
  rw [Borehole.segments, he, List.getElem?_eq_getElem (by rw [List.length_zipWith]; exact lt_min hd hi'), List.getElem_zipWith]
  simp

/-- **C109** (distances).  The distances of two equivalent boreholes are those of their boreholes. -/
theorem equivalent_distance {e t : EquivBore} (he : e.WF) (ht : t.WF) : e.distance t = t.members.map fun q => e.members.map fun p => p.distance q := by
  have hpos : ∀ {c : EquivBore}, c.WF → c.members.map (fun b => (b.x, b.y)) = c.x.zip c.y := fun {c} hc => by
    unfold EquivBore.members
    rw [List.map_map]
    have : ((fun b : Borehole => (b.x, b.y)) ∘ fun p : (ℝ × ℝ) × ℝ => Borehole.new c.H c.D c.rb p.1.1 p.1.2 c.tilt p.2) = Prod.fst := rfl
    rw [this, List.map_fst_zip (by rw [List.length_zip, hc.y, hc.o, min_self])]
  have hrb : ∀ p ∈ e.members, p.rb = e.rb := fun p hp => by
    obtain ⟨q, -, rfl⟩ := List.mem_map.mp hp
    rfl
  rw [EquivBore.distance, ← hpos he, ← hpos ht, List.map_map]
  apply List.map_congr_left
  intro q _
  rw [Function.comp_apply, List.map_map]
  apply List.map_congr_left
  intro p hp
  rw [Function.comp_apply, Borehole.distance, hrb p hp, max_comm]
  congr 2
  ring

/-! ### Examples -/

/-- Two tilted boreholes, then merged with a third one and split. -/
example : ∃ e1 e2 m ss, EquivBore.new (.boreholes [⟨100, 4, 1 / 10, 0, 0, 1 / 4, 0⟩, ⟨100, 4, 1 / 10, 5, 0, 1 / 4, 2⟩]) = .ok e1 ∧
    EquivBore.new (.boreholes [⟨100, 4, 1 / 10, 0, 5, 1 / 4, 1⟩]) = .ok e2 ∧ EquivBore.new (.equivalents [e1, e2]) = .ok m ∧ m.nBoreholes = 3 ∧
    m.segments [1 / 4, 3 / 4] = .ok ss ∧ ss.length = 2 ∧ ∀ i (hi : i < ss.length), (ss[i]).members.map some = m.members.map fun b => (b.segments [1 / 4, 3 / 4])[i]? := by
  have ht : tilted (1 / 4) := by norm_num [tilted, abs_of_pos]
  obtain ⟨e1, h1, w1, m1, n1⟩ := equivalent_of_boreholes (b := ⟨100, 4, 1 / 10, 0, 0, 1 / 4, 0⟩) (l := [⟨100, 4, 1 / 10, 5, 0, 1 / 4, 2⟩]) (by
    intro c hc
    simp only [List.mem_cons, List.not_mem_nil, or_false] at hc
    rcases hc with rfl | rfl <;> exact ⟨⟨rfl, rfl, rfl, rfl⟩, fun h => absurd ht h⟩)
  obtain ⟨e2, h2, w2, m2, n2⟩ := equivalent_of_boreholes (b := ⟨100, 4, 1 / 10, 0, 5, 1 / 4, 1⟩) (l := []) (by
    intro c hc
    simp only [List.mem_singleton] at hc
    subst hc
    exact ⟨⟨rfl, rfl, rfl, rfl⟩, fun h => absurd ht h⟩)
  have hs : SameE e1 e2 := by
    simp only [EquivBore.new, Except.ok.injEq] at h1 h2
    subst h1; subst h2
    exact ⟨rfl, rfl, rfl, rfl⟩
  obtain ⟨m, hm, wm, -, nm⟩ := equivalent_of_equivalents (e := e1) (l := [e2]) (by
    intro c hc
    simp only [List.mem_cons, List.not_mem_nil, or_false] at hc
    rcases hc with rfl | rfl
    · exact ⟨⟨rfl, rfl, rfl, rfl⟩, w1⟩
    · exact ⟨hs, w2⟩)
  obtain ⟨ss, hss, hl, -, hmem⟩ := equivalent_segments wm [1 / 4, 3 / 4]
  exact ⟨e1, e2, m, ss, h1, h2, hm, by rw [nm]; simp [n1, n2], hss, by simpa using hl, hmem⟩

end Verif.Bore
