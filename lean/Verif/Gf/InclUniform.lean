import Verif.Gf.ScaleProps
import Verif.Gf.UniformProps
import Verif.FLS.InclTimeProps

/-!
# Growth of g-functions with a uniform heat extraction rate, for boreholes of any tilt (C128)
-/

noncomputable section

namespace Verif.Gf

open Bore FLS Sol Real

/-! ### Growing response factors give growing g-functions -/

section
variable {F : ℝ → Bool → Borehole → Borehole → ℝ} {bs : List Borehole} {ns : List ℕ} {rs : List (List ℝ)}

/-- Specification: response factors of the segments of a field that are positive and increase with time. -/
def Growing (F : ℝ → Bool → Borehole → Borehole → ℝ) (segs : List Borehole) : Prop :=
  ∀ v t t', 0 < t → t < t' → ∀ s ∈ segs, ∀ r ∈ segs, 0 < F t v s r ∧ F t v s r < F t' v s r

theorem factors_growing (h : Consistent bs ns rs) (hne : ∀ r ∈ rs, r ≠ []) (hH : ∀ s ∈ segmentList bs ns rs, 0 < s.H) (hF : Growing F (segmentList bs ns rs)) {t t' : ℝ} (ht : 0 < t) (htt : t < t')
    (i j : Fin (segmentList bs ns rs).length) :
    0 < ((detailed (F t) bs ns rs).getD fun _ _ => 0) i j ∧ ((detailed (F t) bs ns rs).getD fun _ _ => 0) i j < ((detailed (F t') bs ns rs).getD fun _ _ => 0) i j := by
  obtain ⟨M, hM, he⟩ := detailed_entries (F t) h hne
  obtain ⟨M', hM', he'⟩ := detailed_entries (F t') h hne
  obtain ⟨k, a, sk, e1, hk, g1⟩ := positions_cover h i.isLt
  obtain ⟨l, b, sl, e2, hl, g2⟩ := positions_cover h j.isLt
  rw [hM, hM', Option.getD_some, Option.getD_some, e1, e2, he _ _ _ _ _ _ hk hl, he' _ _ _ _ _ _ hk hl]
  have m1 := List.mem_of_getElem? g1
  have m2 := List.mem_of_getElem? g2
  have hq : 0 < sl.H / sk.H := div_pos (hH _ m2) (hH _ m1)
  split_ifs
  · exact hF _ _ _ ht htt _ m2 _ m1
  · exact hF _ _ _ ht htt _ m2 _ m1
  · obtain ⟨c1, c2⟩ := hF ((bs.drop l).all vertical) _ _ ht htt _ m1 _ m2
    exact ⟨mul_pos c1 hq, mul_lt_mul_of_pos_right c2 hq⟩

/-- Values above the threshold that are positive and increase give values that are positive and increase at all times. -/
theorem linear_growing {G : ℝ → ℝ} (hG : ∀ {t t' : ℝ}, 0 < t → t < t' → 0 < G t ∧ G t < G t') {thr : ℝ} (hthr : 0 < thr) {t t' : ℝ} (ht : 0 < t) (htt : t < t') :
    (0 < if t ≤ thr then G thr * t / thr else G t) ∧ (if t ≤ thr then G thr * t / thr else G t) < if t' ≤ thr then G thr * t' / thr else G t' := by
  have h0 := (hG hthr (lt_add_one thr)).1
  constructor
  · split_ifs with h1
    · positivity
    · exact (hG ht htt).1
  · split_ifs with h1 h2 h2
    · rw [div_lt_div_iff_of_pos_right hthr]
      exact mul_lt_mul_of_pos_left htt h0
    · have e : G thr * t / thr ≤ G thr := by
        rw [div_le_iff₀ hthr]
        exact mul_le_mul_of_nonneg_left h1 h0.le
      exact e.trans_lt (hG hthr (not_le.mp h2)).2
    · exact absurd (htt.le.trans h2) h1
    · exact (hG ht htt).2

/-- **C128** (fields).  With response factors that are positive and increase with time the g-function with a uniform heat extraction rate is positive and increases with time, also across the
threshold for linearization. -/
theorem uniform_growing (h : Consistent bs ns rs) (hne : ∀ r ∈ rs, r ≠ []) (hb : bs ≠ []) (hH : ∀ s ∈ segmentList bs ns rs, 0 < s.H) (hF : Growing F (segmentList bs ns rs)) {time : List ℝ}
    (hpos : ∀ t ∈ time, 0 < t) (hs : time.Pairwise (· < ·)) {thr : ℝ} (hthr : 0 < thr) :
    ∃ g, uniformDetailed F bs ns rs time thr = some g ∧ g.length = time.length ∧ (∀ x ∈ g, 0 < x) ∧ g.Pairwise (· < ·) := by
  have hf := fun {t t' : ℝ} (ht : 0 < t) (htt : t < t') => factors_growing h hne hH hF ht htt
  have hsome : ∀ t, (detailed (F t) bs ns rs).isSome := fun t => by
    obtain ⟨M, hM, -⟩ := detailed_entries (F t) h hne
    rw [hM]; rfl
  have hlen : 0 < (segmentList bs ns rs).length := by
    rw [segmentList_length h]
    cases hbs : bs with
    | nil => exact absurd hbs hb
    | cons b l =>
      have h1 := h.segs
      rw [hbs] at h1
      cases hns : ns with
      | nil => rw [hns] at h1; simp at h1
      | cons n l' =>
        have h2 := h.ratios
        rw [hns] at h2
        cases hrs : rs with
        | nil => rw [hrs] at h2; simp at h2
        | cons r l'' =>
          rw [hrs] at h2
          have h3 := (List.cons.inj h2).1
          have := List.length_pos_iff.mpr (hne r (by rw [hrs]; simp))
          rw [List.sum_cons]; omega
  unfold uniformDetailed
  dsimp only
  rw [if_pos fun t _ => hsome t]
  obtain ⟨segs, hsegs⟩ : ∃ segs, segs = segmentList bs ns rs := ⟨_, rfl⟩
  rw [← hsegs] at hlen hH
  have hf' : ∀ {t t' : ℝ}, 0 < t → t < t' → ∀ i j : Fin segs.length, 0 < ((detailed (F t) bs ns rs).getD fun _ _ => 0) i j ∧
      ((detailed (F t) bs ns rs).getD fun _ _ => 0) i j < ((detailed (F t') bs ns rs).getD fun _ _ => 0) i j := by
    subst hsegs
    exact fun ht htt i j => hf ht htt i j
  obtain ⟨P, hP⟩ : ∃ P : Fin segs.length → Fin segs.length → ℝ → ℝ, P = fun (i j : Fin segs.length) t => ((detailed (F t) bs ns rs).getD fun _ _ => 0) i j := ⟨_, rfl⟩
  have hP' : ∀ {t t' : ℝ}, 0 < t → t < t' → ∀ i j, 0 < P i j t ∧ P i j t < P i j t' := by rw [hP]; exact fun ht htt i j => hf' ht htt i j
  have hu := uhtr_average (fun i : Fin segs.length => segs[i].H) (resp := fun tl i j => tl.map (P i j)) (F := P) (fun _ _ _ => rfl) (hs.imp fun h => h.le) thr
  have hne' : (Finset.univ : Finset (Fin segs.length)).Nonempty := ⟨⟨0, hlen⟩, Finset.mem_univ _⟩
  have hHi : ∀ i : Fin segs.length, 0 < segs[i].H := fun i => hH _ (List.getElem_mem _)
  have hsum : 0 < ∑ i : Fin segs.length, segs[i].H := Finset.sum_pos (fun i _ => hHi i) hne'
  have hG : ∀ {t t' : ℝ}, 0 < t → t < t' → 0 < (∑ i : Fin segs.length, segs[i].H * ∑ j, P i j t) / (∑ i : Fin segs.length, segs[i].H) ∧
      (∑ i : Fin segs.length, segs[i].H * ∑ j, P i j t) / (∑ i : Fin segs.length, segs[i].H) < (∑ i : Fin segs.length, segs[i].H * ∑ j, P i j t') / (∑ i : Fin segs.length, segs[i].H) :=
    fun ht htt => ⟨div_pos (Finset.sum_pos (fun i _ => mul_pos (hHi i) (Finset.sum_pos (fun j _ => (hP' ht htt i j).1) hne')) hne') hsum,
      div_lt_div_of_pos_right (Finset.sum_lt_sum_of_nonempty hne' fun i _ => mul_lt_mul_of_pos_left (Finset.sum_lt_sum_of_nonempty hne' fun j _ => (hP' ht htt i j).2) (hHi i)) hsum⟩
  obtain ⟨g, hg⟩ : ∃ g, g = uhtr (fun i : Fin segs.length => segs[i].H) (fun tl i j => tl.map (P i j)) time thr := ⟨_, rfl⟩
  rw [← hg] at hu
  have hV := fun {t t' : ℝ} (ht : 0 < t) (htt : t < t') => linear_growing (G := fun t => (∑ i : Fin segs.length, segs[i].H * ∑ j, P i j t) / (∑ i : Fin segs.length, segs[i].H)) hG hthr ht htt
  refine ⟨g, by subst hg hP hsegs; rfl, hu.1, fun x hx => ?_, ?_⟩
  · obtain ⟨k, hk, rfl⟩ := List.getElem_of_mem hx
    have hk' : k < time.length := by rw [← hu.1]; exact hk
    have e := hu.2 k _ (List.getElem?_eq_getElem hk')
    rw [List.getElem?_eq_getElem hk] at e
    rw [Option.some.inj e]
    exact (hV (hpos _ (List.getElem_mem hk')) (lt_add_one _)).1
  · rw [List.pairwise_iff_getElem]
    intro k l hk hl hkl
    have hk' : k < time.length := by rw [← hu.1]; exact hk
    have hl' : l < time.length := by rw [← hu.1]; exact hl
    have e := hu.2 k _ (List.getElem?_eq_getElem hk')
    have e' := hu.2 l _ (List.getElem?_eq_getElem hl')
    rw [List.getElem?_eq_getElem hk] at e
    rw [List.getElem?_eq_getElem hl] at e'
    rw [Option.some.inj e, Option.some.inj e']
    exact (hV (hpos _ (List.getElem_mem hk')) (List.pairwise_iff_getElem.mp hs k l hk' hl' hkl)).2

end

/-! ### Fields of boreholes of any tilt -/

open Incl (px py pz dist2 gap Down Inside Apart)

/-- Specification: a field of boreholes that go down from under the ground surface and whose axes do not meet; the orientation of a vertical borehole is zero, as in `Borehole.__init__`. -/
structure Drilled (bs : List Borehole) : Prop where
  ne : bs ≠ []
  down : ∀ b ∈ bs, Down b
  rb : ∀ b ∈ bs, 0 < b.rb
  orientation : ∀ b ∈ bs, ¬ tilted b.tilt → b.orientation = 0
  clear : ∀ (k l : ℕ) (b c : Borehole), bs[k]? = some b → bs[l]? = some c → k ≠ l → ∀ u ∈ Set.Icc 0 b.H, ∀ v ∈ Set.Icc 0 c.H, px b u ≠ px c v ∨ py b u ≠ py c v ∨ pz b u ≠ pz c v

theorem segsFrom_at (b : Borehole) (r : List ℝ) : ∀ (a : ℝ) (m : ℕ) (s : Borehole), (segsFrom b a r)[m]? = some s → ∃ ρ, r[m]? = some ρ ∧ s = b.segmentAt ((a + (r.take m).sum) * b.H) ρ := by
  induction r with
  | nil => intro a m s h; simp [segsFrom] at h
  | cons ρ r ih =>
    intro a m s h
    cases m with
    | zero => exact ⟨ρ, rfl, by simpa [segsFrom] using h.symm⟩
    | succ m =>
      obtain ⟨ρ', h1, h2⟩ := ih (a + ρ) m s (by simpa [segsFrom] using h)
      exact ⟨ρ', by simpa using h1, by rw [h2, List.take_succ_cons, List.sum_cons, add_assoc]⟩

/-- The points of a segment are points of its borehole. -/
theorem segment_points {b : Borehole} (ho : ¬ tilted b.tilt → b.orientation = 0) (z ρ v : ℝ) :
    px (b.segmentAt z ρ) v = px b (z + v) ∧ py (b.segmentAt z ρ) v = py b (z + v) ∧ pz (b.segmentAt z ρ) v = pz b (z + v) := by
  have e : (b.segmentAt z ρ).orientation = b.orientation := by
    show (if tilted b.tilt then b.orientation else 0) = b.orientation
    split_ifs with h
    · rfl
    · exact (ho h).symm
  unfold px py pz
  rw [e]
  refine ⟨?_, ?_, ?_⟩
  · show b.x + z * sin b.tilt * cos b.orientation + v * (sin b.tilt * cos b.orientation) = _; ring
  · show b.y + z * sin b.tilt * sin b.orientation + v * (sin b.tilt * sin b.orientation) = _; ring
  · show b.D + z * cos b.tilt + v * cos b.tilt = _; ring

theorem take_sum {r : List ℝ} (hr : ∀ ρ ∈ r, 0 < ρ) {m : ℕ} {ρ : ℝ} (h : r[m]? = some ρ) {l : ℕ} (hl : m < l) : (r.take m).sum + ρ ≤ (r.take l).sum := by
  induction r generalizing m l with
  | nil => simp at h
  | cons x r ih =>
    have hx := hr x (by simp)
    have hr' : ∀ ρ ∈ r, 0 < ρ := fun ρ hρ => hr ρ (by simp [hρ])
    obtain ⟨l, rfl⟩ : ∃ l', l = l' + 1 := ⟨l - 1, by omega⟩
    cases m with
    | zero =>
      obtain rfl : x = ρ := by simpa using h
      have : 0 ≤ (r.take l).sum := List.sum_nonneg fun y hy => (hr' y (List.mem_of_mem_take hy)).le
      simp; linarith
    | succ m =>
      have := ih hr' (m := m) (by simpa using h) (l := l) (by omega)
      simp only [List.take_succ_cons, List.sum_cons]; linarith

theorem line_distance (b : Borehole) (u v : ℝ) : (px b u - px b v) ^ 2 + (py b u - py b v) ^ 2 + (pz b u - pz b v) ^ 2 = (u - v) ^ 2 := by
  unfold px py pz
  linear_combination (u - v) ^ 2 * sin b.tilt ^ 2 * sin_sq_add_cos_sq b.orientation + (u - v) ^ 2 * sin_sq_add_cos_sq b.tilt

section
variable {bs : List Borehole} (hD : Drilled bs) {ns : List ℕ} {rs : List (List ℝ)} (h : Splits bs ns rs)
include hD h

omit hD in
/-- What the segments of a field are. -/
theorem drilled_segment {s : Borehole} (hs : s ∈ segmentList bs ns rs) : ∃ (k m : ℕ) (b : Borehole) (r : List ℝ) (ρ : ℝ), bs[k]? = some b ∧ rs[k]? = some r ∧ r[m]? = some ρ ∧
    s = b.segmentAt ((r.take m).sum * b.H) ρ := by
  obtain ⟨p, hp, rfl⟩ := List.getElem_of_mem hs
  obtain ⟨k, m, s, -, ⟨b, r, hb, hr, hs⟩, g⟩ := positions_cover h.consistent hp
  rw [List.getElem?_eq_getElem hp] at g
  rw [segments_eq] at hs
  obtain ⟨ρ, h1, h2⟩ := segsFrom_at b r 0 m s hs
  exact ⟨k, m, b, r, ρ, hb, hr, h1, by rw [Option.some.inj g, h2, zero_add]⟩

theorem drilled_down {s : Borehole} (hs : s ∈ segmentList bs ns rs) : Down s ∧ 0 < s.rb := by
  obtain ⟨k, m, b, r, ρ, hb, hr, hm, rfl⟩ := drilled_segment h hs
  have hb' := List.mem_of_getElem? hb
  have hpos := h.pos r (List.mem_of_getElem? hr)
  obtain ⟨h1, h2, h3⟩ := hD.down b hb'
  have hρ := hpos ρ (List.mem_of_getElem? hm)
  have h0 : 0 ≤ (r.take m).sum := List.sum_nonneg fun y hy => (hpos y (List.mem_of_mem_take hy)).le
  refine ⟨⟨mul_pos hρ h1, ?_, h3⟩, hD.rb b hb'⟩
  show 0 ≤ b.D + (r.take m).sum * b.H * cos b.tilt
  positivity

theorem drilled_apart {nodes : List (ℝ × ℝ)} (hn : Inside nodes) {s r : Borehole} (hs : s ∈ segmentList bs ns rs) (hr : r ∈ segmentList bs ns rs) : Apart s r nodes := by
  have ds := (drilled_down hD h hs).1
  have dr := (drilled_down hD h hr).1
  refine ⟨dr.H, fun n hm v hv => ?_, fun n hm v hv => Incl.img_far ds dr (hn.pos n hm) hv.1⟩
  have hg := Incl.gap_nonneg s r
  rcases eq_or_ne s r with e | hne
  · subst e
    have : 0 < gap s s := lt_max_of_lt_right (by have := (drilled_down hD h hs).2; simp; positivity)
    linarith [Incl.dist2_nonneg s s n.1 v]
  · suffices 0 < dist2 s r n.1 v by linarith
    obtain ⟨k, a, b, q, ρ, hb, hq, ha, rfl⟩ := drilled_segment h hs
    obtain ⟨l, a', c, q', ρ', hc, hq', ha', rfl⟩ := drilled_segment h hr
    have mb := List.mem_of_getElem? hb
    have mc := List.mem_of_getElem? hc
    have pq := h.pos q (List.mem_of_getElem? hq)
    have pq' := h.pos q' (List.mem_of_getElem? hq')
    have hρ := pq ρ (List.mem_of_getElem? ha)
    have hρ' := pq' ρ' (List.mem_of_getElem? ha')
    have Hb := (hD.down b mb).H
    have Hc := (hD.down c mc).H
    have z0 : 0 ≤ (q.take a).sum := List.sum_nonneg fun y hy => (pq y (List.mem_of_mem_take hy)).le
    have z0' : 0 ≤ (q'.take a').sum := List.sum_nonneg fun y hy => (pq' y (List.mem_of_mem_take hy)).le
    have n0 := hn.pos n hm
    have n1 := hn.lt n hm
    obtain ⟨x1, x2, x3⟩ := segment_points (hD.orientation b mb) ((q.take a).sum * b.H) ρ (n.1 * (b.segmentAt ((q.take a).sum * b.H) ρ).H)
    obtain ⟨y1, y2, y3⟩ := segment_points (hD.orientation c mc) ((q'.take a').sum * c.H) ρ' v
    have hHs : (b.segmentAt ((q.take a).sum * b.H) ρ).H = ρ * b.H := rfl
    have hHr : (c.segmentAt ((q'.take a').sum * c.H) ρ').H = ρ' * c.H := rfl
    rw [hHr] at hv
    unfold dist2
    rw [x1, x2, x3, y1, y2, y3, hHs]
    rcases eq_or_ne k l with e | hkl
    · subst e
      rw [hb] at hc
      rw [hq] at hq'
      obtain rfl := Option.some.inj hc
      obtain rfl := Option.some.inj hq'
      have haa : a ≠ a' := by
        rintro rfl
        rw [ha] at ha'
        obtain rfl := Option.some.inj ha'
        exact hne rfl
      rw [line_distance]
      refine sq_pos_of_ne_zero (sub_ne_zero.mpr ?_)
      have u0 : 0 < n.1 * (ρ * b.H) := by positivity
      have u1 : n.1 * (ρ * b.H) < ρ * b.H := by nlinarith [mul_pos hρ Hb]
      rcases Nat.lt_or_gt_of_ne haa with hlt | hlt
      · have := mul_le_mul_of_nonneg_right (take_sum pq ha hlt) Hb.le
        have := hv.1
        exact ne_of_lt (by nlinarith)
      · have := mul_le_mul_of_nonneg_right (take_sum pq ha' hlt) Hb.le
        have := hv.2
        exact ne_of_gt (by nlinarith)
    · have s1 : (q.take a).sum + ρ ≤ 1 := by
        have := take_sum pq ha (List.getElem?_eq_some_iff.mp ha).1
        rwa [List.take_length, h.sum q (List.mem_of_getElem? hq)] at this
      have s2 : (q'.take a').sum + ρ' ≤ 1 := by
        have := take_sum pq' ha' (List.getElem?_eq_some_iff.mp ha').1
        rwa [List.take_length, h.sum q' (List.mem_of_getElem? hq')] at this
      have e1 := mul_le_mul_of_nonneg_right s1 Hb.le
      have e2 := mul_le_mul_of_nonneg_right s2 Hc.le
      have u1 : n.1 * (ρ * b.H) ≤ ρ * b.H := by nlinarith [mul_pos hρ Hb]
      have := hv.1
      have := hv.2
      rcases hD.clear k l b c hb hc hkl ((q.take a).sum * b.H + n.1 * (ρ * b.H)) ⟨by positivity, by linarith⟩ ((q'.take a').sum * c.H + v) ⟨by positivity, by linarith⟩ with e | e | e
      · have := sq_pos_of_ne_zero (sub_ne_zero.mpr e); positivity
      · have := sq_pos_of_ne_zero (sub_ne_zero.mpr e); positivity
      · have := sq_pos_of_ne_zero (sub_ne_zero.mpr e); positivity

/-- **C128** (response factors).  Those of the line source solutions, vertical or inclined, of all segments of a field are positive and increase with time. -/
theorem lineSource_growing {alpha : ℝ} (ha : 0 < alpha) {nodes : List (ℝ × ℝ)} (hn : Inside nodes) : Growing (lineSource nodes alpha) (segmentList bs ns rs) := by
  intro v t t' ht htt s hs r hr
  obtain ⟨ds, hrb⟩ := drilled_down hD h hs
  obtain ⟨dr, -⟩ := drilled_down hD h hr
  unfold lineSource
  cases v with
  | true => exact (positive_increasing ha (pairOf_ok hrb ds.H.le dr.H) ds.H ht htt).2.2.2 ds.D dr.D
  | false => exact (Incl.inclined_increasing ha (drilled_apart hD h hn hs hr) ds dr hn ht htt).2.2.2

/-- **C128**.  The g-function of a field of boreholes of any tilt with a uniform heat extraction rate is positive and increases with time. -/
theorem inclined_uniform_increasing {alpha : ℝ} (ha : 0 < alpha) {nodes : List (ℝ × ℝ)} (hn : Inside nodes) {time : List ℝ} (hpos : ∀ t ∈ time, 0 < t) (hs : time.Pairwise (· < ·)) {thr : ℝ} (hthr : 0 < thr) :
    ∃ g, uniformDetailed (lineSource nodes alpha) bs ns rs time thr = some g ∧ g.length = time.length ∧ (∀ x ∈ g, 0 < x) ∧ g.Pairwise (· < ·) :=
  uniform_growing h.consistent h.ne hD.ne (fun _ hs => (drilled_down hD h hs).1.H) (lineSource_growing hD h ha hn) hpos hs hthr

end

/-! ### Concrete case -/

/-- Two boreholes inclined away from each other and a vertical one between them. -/
def fieldI : List Borehole := [⟨100, 4, 3 / 40, 0, 0, 1 / 2, π⟩, ⟨150, 2, 3 / 40, 5, 0, 1 / 2, 0⟩, ⟨80, 0, 3 / 40, 2, 3, 0, 0⟩]

theorem fieldI_drilled : Drilled fieldI := by
  have hs : 0 < sin (1 / 2 : ℝ) := sin_pos_of_pos_of_lt_pi (by norm_num) (by linarith [pi_gt_three])
  have hc : 0 < cos (1 / 2 : ℝ) := cos_pos_of_mem_Ioo ⟨by linarith [pi_gt_three], by linarith [pi_gt_three]⟩
  have ht : tilted (1 / 2 : ℝ) := by unfold tilted; norm_num [abs_of_pos]
  refine ⟨by simp [fieldI], ?_, ?_, ?_, ?_⟩
  · simp only [fieldI, List.mem_cons, List.not_mem_nil, or_false, forall_eq_or_imp, forall_eq]
    exact ⟨⟨by norm_num, by norm_num, hc⟩, ⟨by norm_num, by norm_num, hc⟩, ⟨by norm_num, by norm_num, by simp⟩⟩
  · simp only [fieldI, List.mem_cons, List.not_mem_nil, or_false, forall_eq_or_imp, forall_eq]
    norm_num
  · simp only [fieldI, List.mem_cons, List.not_mem_nil, or_false, forall_eq_or_imp, forall_eq]
    exact ⟨fun h => absurd ht h, fun _ => trivial, fun _ => trivial⟩
  · have x1 : ∀ u, 0 ≤ u → px ⟨100, 4, 3 / 40, 0, 0, 1 / 2, π⟩ u ≤ 0 := fun u hu => by simp only [px, cos_pi]; nlinarith [mul_nonneg hu hs.le]
    have x2 : ∀ u, 0 ≤ u → 5 ≤ px ⟨150, 2, 3 / 40, 5, 0, 1 / 2, 0⟩ u := fun u hu => by simp only [px, cos_zero]; nlinarith [mul_nonneg hu hs.le]
    have x3 : ∀ u, px ⟨80, 0, 3 / 40, 2, 3, 0, 0⟩ u = 2 := fun u => by simp [px]
    intro k l b c hb hc' hkl u hu v hv
    left
    match k, l, hkl with
    | 0, 0, h => exact absurd rfl h
    | 0, 1, _ => obtain rfl := Option.some.inj hb; obtain rfl := Option.some.inj hc'; have := x1 u hu.1; have := x2 v hv.1; exact ne_of_lt (by linarith)
    | 0, 2, _ => obtain rfl := Option.some.inj hb; obtain rfl := Option.some.inj hc'; have := x1 u hu.1; have := x3 v; exact ne_of_lt (by linarith)
    | 1, 0, _ => obtain rfl := Option.some.inj hb; obtain rfl := Option.some.inj hc'; have := x2 u hu.1; have := x1 v hv.1; exact ne_of_gt (by linarith)
    | 1, 1, h => exact absurd rfl h
    | 1, 2, _ => obtain rfl := Option.some.inj hb; obtain rfl := Option.some.inj hc'; have := x2 u hu.1; have := x3 v; exact ne_of_gt (by linarith)
    | 2, 0, _ => obtain rfl := Option.some.inj hb; obtain rfl := Option.some.inj hc'; have := x1 v hv.1; have := x3 u; exact ne_of_gt (by linarith)
    | 2, 1, _ => obtain rfl := Option.some.inj hb; obtain rfl := Option.some.inj hc'; have := x2 v hv.1; have := x3 u; exact ne_of_lt (by linarith)
    | 2, 2, h => exact absurd rfl h
    | k + 3, _, _ => simp [fieldI] at hb
    | _, l + 3, _ => simp [fieldI] at hc'

theorem fieldI_splits : Splits fieldI [2, 1, 1] [[1 / 4, 3 / 4], [1], [1]] := ⟨⟨rfl, rfl⟩, by simp, by norm_num⟩

theorem halves_inside : Inside [(1 / 4, 1 / 2), (3 / 4, 1 / 2)] := ⟨by simp, by simp, by norm_num, by simp⟩

example : ∃ x y z, uniformDetailed (lineSource [(1 / 4, 1 / 2), (3 / 4, 1 / 2)] (1 / 10 ^ 6)) fieldI [2, 1, 1] [[1 / 4, 3 / 4], [1], [1]] [10 ^ 3, 10 ^ 6, 10 ^ 9] (10 ^ 4) = some [x, y, z] ∧ 0 < x ∧ x < y ∧ y < z := by
  obtain ⟨g, hg, hl, hp, hi⟩ := inclined_uniform_increasing fieldI_drilled fieldI_splits (alpha := 1 / 10 ^ 6) (by norm_num) halves_inside (time := [10 ^ 3, 10 ^ 6, 10 ^ 9]) (by simp) (by simp; norm_num)
    (thr := 10 ^ 4) (by norm_num)
  match g, hl with
  | [x, y, z], _ =>
    simp only [List.pairwise_cons, List.mem_cons, List.not_mem_nil, or_false, forall_eq_or_imp, forall_eq] at hi hp
    exact ⟨x, y, z, hg, hp.1, hi.1.1, hi.2.1⟩

example := Incl.inclined_increasing (alpha := 1 / 10 ^ 6) (by norm_num) Incl.sample_apart ⟨by norm_num [Incl.sample1], by norm_num [Incl.sample1], Incl.sample_cos⟩
  ⟨by norm_num [Incl.sample2], by norm_num [Incl.sample2], Incl.sample_cos⟩ ⟨by simp, by norm_num, by norm_num, by norm_num⟩ (t := 10 ^ 6) (t' := 10 ^ 9) (by norm_num) (by norm_num)

example := uniform_growing fieldI_splits.consistent fieldI_splits.ne fieldI_drilled.ne (fun _ hs => (drilled_down fieldI_drilled fieldI_splits hs).1.H)
  (lineSource_growing fieldI_drilled fieldI_splits (alpha := 1) one_pos halves_inside) (time := [1, 2]) (by simp) (by simp) one_pos

end Verif.Gf
