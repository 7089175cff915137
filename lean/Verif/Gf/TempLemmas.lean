import Verif.FLS.PackLemmas
import Verif.Gf.TempModel
import Verif.Gf.UniformProps

/-!
# Lemmas: the response factors of a field of vertical boreholes are positive definite
-/

noncomputable section

namespace Verif.Gf

open Bore FLS Sol

/-! ### Interpolation -/

theorem line_weights {a q x : ℝ} (h1 : a < x) (h2 : a < q) (h3 : x ≤ q) (f : ℝ → ℝ) : line (a, f a) (q, f q) x = (q - x) / (q - a) * f a + (x - a) / (q - a) * f q := by
  have : q - a ≠ 0 := by linarith
  unfold line
  field_simp
  ring

theorem interpGo_weights (x : ℝ) (l : List ℝ) : ∀ a : ℝ, Increasing a l → a < x → x ≤ l.getLastD a →
    ∃ p ∈ a :: l, ∃ q ∈ l, ∃ u v : ℝ, 0 ≤ u ∧ 0 < v ∧ ∀ f : ℝ → ℝ, interpGo x (a, f a) (List.zip l (l.map f)) = u * f p + v * f q := by
  induction l with
  | nil => intro a _ h1 h2; simp at h2; linarith
  | cons q l ih =>
    intro a hi h1 h2
    have haq := hi.1
    have hcase : x ≤ q → ∃ p ∈ a :: q :: l, ∃ r ∈ q :: l, ∃ u v : ℝ, 0 ≤ u ∧ 0 < v ∧ ∀ f : ℝ → ℝ, line (a, f a) (q, f q) x = u * f p + v * f r := fun hx =>
      ⟨a, by simp, q, by simp, (q - x) / (q - a), (x - a) / (q - a), div_nonneg (by linarith) (by linarith), div_pos (by linarith) (by linarith), fun f => line_weights h1 haq hx f⟩
    cases l with
    | nil => exact hcase (by simpa using h2)
    | cons r l =>
      by_cases hx : x ≤ q
      · obtain ⟨p, hp, s, hs, u, v, hu, hv, e⟩ := hcase hx
        refine ⟨p, hp, s, hs, u, v, hu, hv, fun f => ?_⟩
        rw [← e f]
        simp [interpGo, hx]
      · obtain ⟨p, hp, s, hs, u, v, hu, hv, e⟩ := ih q hi.2 (not_le.mp hx) (by rw [List.getLastD_cons] at h2; exact h2)
        refine ⟨p, by simp at hp ⊢; tauto, s, by simp at hs ⊢; tauto, u, v, hu, hv, fun f => ?_⟩
        rw [← e f]
        simp [interpGo, hx]

theorem increasing_gt {a : ℝ} {l : List ℝ} (h : Increasing a l) : ∀ t ∈ l, a < t := by
  induction l generalizing a with
  | nil => simp
  | cons q l ih =>
    intro t ht
    rcases List.mem_cons.mp ht with rfl | ht
    · exact h.1
    · exact h.1.trans (ih h.2 t ht)

theorem definite_step {n : ℕ} {H : Fin n → ℝ} (F : Fin n → Fin n → ℝ → ℝ) {tl : List ℝ} (hi : Increasing 0 tl) (hF : ∀ t ∈ tl, Definite H fun i j => F i j t) {p : ℕ} (hp : p < tl.length)
    {h : Matrix (Fin n) (Fin n) ℝ} (hh : respAt tl (fun i j => tl.map (F i j)) ((diffs tl).getD p 0) = some h) : Definite H h := by
  obtain ⟨x, hx⟩ : ∃ x, x = (diffs tl).getD p 0 := ⟨_, rfl⟩
  have hx0 : 0 < x ∧ x ≤ tl.getLastD 0 := by
    rw [hx, diffs_eq]
    have hm : ∀ v ∈ diffsFrom 0 tl, 0 < v ∧ v ≤ (diffsFrom 0 tl).sum := fun v hv =>
      ⟨diffsFrom_pos hi v hv, List.single_le_sum (fun w hw => (diffsFrom_pos hi w hw).le) v hv⟩
    rw [diffsFrom_sum, sub_zero] at hm
    rw [List.getD_eq_getElem _ _ (by rw [diffsFrom_length]; exact hp)]
    exact hm _ (List.getElem_mem _)
  rw [← hx] at hh
  obtain ⟨a, ha, b, hb, u, v, hu, hv, e⟩ := interpGo_weights x tl 0 hi hx0.1 hx0.2
  have hval : ∀ i j, h i j = u * (if a = 0 then 0 else F i j a) + v * F i j b := fun i j => by
    have h1 := allSome_iff.mp (allSome_iff.mp hh i) j
    have h2 := e fun t => if t = 0 then 0 else F i j t
    have h3 : tl.map (fun t => if t = 0 then 0 else F i j t) = tl.map (F i j) := List.map_congr_left fun t ht => if_neg (increasing_gt hi t ht).ne'
    rw [h3] at h2
    simp only [if_true, (increasing_gt hi b hb).ne', if_false] at h2
    rw [← h2]
    rw [List.zip_cons_cons] at h1
    unfold interp at h1
    dsimp only at h1
    split at h1
    · exact (Option.some.inj h1).symm
    · simp at h1
  intro Q hQ
  have e1 : ∑ i, H i * Q i * ∑ j, h i j * Q j = u * (∑ i, H i * Q i * ∑ j, (if a = 0 then 0 else F i j a) * Q j) + v * ∑ i, H i * Q i * ∑ j, F i j b * Q j := by
    rw [Finset.mul_sum, Finset.mul_sum, ← Finset.sum_add_distrib]
    refine Finset.sum_congr rfl fun i _ => ?_
    have e2 : ∑ j, h i j * Q j = u * (∑ j, (if a = 0 then 0 else F i j a) * Q j) + v * ∑ j, F i j b * Q j := by
      rw [Finset.mul_sum, Finset.mul_sum, ← Finset.sum_add_distrib]
      exact Finset.sum_congr rfl fun j _ => by rw [hval i j]; ring
    rw [e2]; ring
  rw [e1]
  have hB := hF b hb Q hQ
  by_cases ha0 : a = 0
  · simp only [ha0, if_true, zero_mul, Finset.sum_const_zero, mul_zero, zero_add]
    positivity
  · simp only [ha0, if_false]
    have hA := hF a (by simpa [ha0] using ha) Q hQ
    positivity

theorem timeLong_increasing {time : List ℝ} (hpos : ∀ t ∈ time, 0 < t) (hs : time.Pairwise (· < ·)) {thr : ℝ} (hthr : 0 < thr) : Increasing 0 (timeLong time thr) := by
  have key : ∀ (l : List ℝ) (a : ℝ), l.Pairwise (· < ·) → (∀ t ∈ l, a < t) → Increasing a l := by
    intro l
    induction l with
    | nil => intros; trivial
    | cons q l ih =>
      intro a hl ha
      rw [List.pairwise_cons] at hl
      exact ⟨ha q (by simp), ih q hl.2 hl.1⟩
  unfold timeLong
  split_ifs with h
  · refine ⟨hthr, key _ _ (hs.sublist (List.drop_sublist _ _)) fun t ht => ?_⟩
    obtain ⟨k, hk⟩ := List.mem_iff_getElem?.mp ht
    rw [List.getElem?_drop] at hk
    by_contra hle
    have := (pLong_iff (hs.imp fun h => h.le) thr _ t hk).mpr (not_lt.mp hle)
    omega
  · exact key _ _ hs hpos

/-! ### Geometry of the segments -/

theorem segsFrom_get {b : Borehole} (ht : b.tilt = 0) (r : List ℝ) : ∀ (a : ℝ) (m : ℕ) (s : Borehole), (segsFrom b a r)[m]? = some s →
    ∃ ρ, r[m]? = some ρ ∧ s.H = ρ * b.H ∧ s.D = b.D + (a + (r.take m).sum) * b.H ∧ s.x = b.x ∧ s.y = b.y ∧ s.rb = b.rb := by
  induction r with
  | nil => intro a m s h; simp [segsFrom] at h
  | cons ρ r ih =>
    intro a m s h
    cases m with
    | zero =>
      simp [segsFrom] at h
      subst h
      exact ⟨ρ, rfl, by simp [Borehole.segmentAt, Borehole.new, ht]⟩
    | succ m =>
      simp only [segsFrom, List.getElem?_cons_succ] at h
      obtain ⟨ρ', h1, h2, h3, h4⟩ := ih (a + ρ) m s h
      exact ⟨ρ', by simpa using h1, h2, by rw [h3, List.take_succ_cons, List.sum_cons]; ring, h4⟩

theorem take_sum_le {r : List ℝ} (hp : ∀ ρ ∈ r, 0 < ρ) {m m' : ℕ} (h : m < m') {ρ : ℝ} (hr : r[m]? = some ρ) : (r.take m).sum + ρ ≤ (r.take m').sum := by
  have e : r.take (m + 1) = r.take m ++ [ρ] := by rw [List.take_add_one, hr]; rfl
  have : (r.take (m + 1)).sum ≤ (r.take m').sum := by
    have h1 : r.take m' = r.take (m + 1) ++ (r.take m').drop (m + 1) := by
      have := List.take_append_drop (m + 1) (r.take m')
      rw [List.take_take, min_eq_left h] at this
      exact this.symm
    rw [h1, List.sum_append]
    have : 0 ≤ ((r.take m').drop (m + 1)).sum := List.sum_nonneg fun x hx => (hp x (List.mem_of_mem_take (List.mem_of_mem_drop hx))).le
    linarith
  rw [e, List.sum_append] at this
  simpa using this

/-- Any two boreholes are at a distance of at least ten radii. -/
def Spaced (rb : ℝ) (bs : List Borehole) : Prop := bs.Pairwise fun b c => (10 * rb) ^ 2 ≤ (b.x - c.x) ^ 2 + (b.y - c.y) ^ 2

theorem spaced_get {rb : ℝ} {bs : List Borehole} (h : Spaced rb bs) (k l : Fin bs.length) (hkl : k ≠ l) : (10 * rb) ^ 2 ≤ (bs[k].x - bs[l].x) ^ 2 + (bs[k].y - bs[l].y) ^ 2 := by
  have hp := List.pairwise_iff_getElem.mp h
  rcases lt_or_gt_of_ne (Fin.val_ne_of_ne hkl) with h1 | h1
  · exact hp k l k.isLt l.isLt h1
  · have := hp l k l.isLt k.isLt h1
    refine this.trans_eq ?_
    show _ = (bs[k.val].x - bs[l.val].x) ^ 2 + (bs[k.val].y - bs[l.val].y) ^ 2
    ring

variable {rb : ℝ} {bs : List Borehole} {ns : List ℕ} {rs : List (List ℝ)}

/-- Every segment is a part of one of the boreholes, below the parts before it. -/
theorem segment_data (hU : Upright rb bs) (h : Splits bs ns rs) : ∃ bore : Fin (segmentList bs ns rs).length → Fin bs.length,
    Stacked (fun i => (segmentList bs ns rs)[i].D) (fun i => (segmentList bs ns rs)[i].H) bore ∧
    ∀ i, (segmentList bs ns rs)[i].x = bs[bore i].x ∧ (segmentList bs ns rs)[i].y = bs[bore i].y ∧ (segmentList bs ns rs)[i].rb = rb := by
  have hall : ∀ i : Fin (segmentList bs ns rs).length, ∃ (k : Fin bs.length) (a : ℕ) (r : List ℝ) (ρ : ℝ), i.val = position rs k a ∧ rs[k.val]? = some r ∧ r[a]? = some ρ ∧
      (segmentList bs ns rs)[i].H = ρ * bs[k].H ∧ (segmentList bs ns rs)[i].D = bs[k].D + (r.take a).sum * bs[k].H ∧ (segmentList bs ns rs)[i].x = bs[k].x ∧ (segmentList bs ns rs)[i].y = bs[k].y ∧ (segmentList bs ns rs)[i].rb = rb := by
    intro i
    obtain ⟨k, a, s, e1, ⟨b, r, hb, hr, hs⟩, g1⟩ := positions_cover h.consistent i.isLt
    have v1 : (segmentList bs ns rs)[i] = s := by
      have := List.getElem?_eq_getElem i.isLt
      rw [g1] at this
      exact (Option.some.inj this).symm
    obtain ⟨hk, hkb⟩ := List.getElem?_eq_some_iff.mp hb
    have hbm := List.mem_of_getElem? hb
    rw [segments_eq] at hs
    obtain ⟨ρ, q1, q2, q3, q4, q5, q6⟩ := segsFrom_get (hU.tilt b hbm) r 0 a s hs
    refine ⟨⟨k, hk⟩, a, r, ρ, e1, hr, q1, ?_⟩
    rw [v1]
    show s.H = ρ * bs[k].H ∧ s.D = bs[k].D + (r.take a).sum * bs[k].H ∧ s.x = bs[k].x ∧ s.y = bs[k].y ∧ s.rb = rb
    rw [hkb]
    exact ⟨q2, by rw [q3, zero_add], q4, q5, by rw [q6, hU.rb b hbm]⟩
  choose bore a r ρ hpos hr hρ hH hD hx hy hrb using hall
  have hbH : ∀ k : Fin bs.length, 0 < bs[k].H := fun k => hU.H _ (List.getElem_mem _)
  have hbD : ∀ k : Fin bs.length, 0 ≤ bs[k].D := fun k => hU.D _ (List.getElem_mem _)
  have hrp : ∀ i, ∀ x ∈ r i, 0 < x := fun i => h.pos _ (List.mem_of_getElem? (hr i))
  have hρp : ∀ i, 0 < ρ i := fun i => hrp i _ (List.mem_of_getElem? (hρ i))
  refine ⟨bore, ⟨fun i => ?_, fun i => ?_, fun i j hij hb => ?_⟩, fun i => ⟨hx i, hy i, hrb i⟩⟩
  · rw [hD i]
    have h1 := hbD (bore i)
    have h2 := hbH (bore i)
    have h3 : 0 ≤ ((r i).take (a i)).sum := List.sum_nonneg fun x hx => (hrp i x (List.mem_of_mem_take hx)).le
    positivity
  · rw [hH i]
    exact mul_pos (hρp i) (hbH _)
  · have hrr : r i = r j := by
      have h1 := hr i
      rw [hb, hr j] at h1
      exact (Option.some.inj h1).symm
    have haa : a i ≠ a j := fun he => hij (Fin.ext (by rw [hpos i, hpos j, hb, he]))
    have h2 := hbH (bore j)
    rw [hD i, hD j, hH i, hH j, hb, hrr]
    rcases lt_or_gt_of_ne haa with hlt | hlt
    · left
      have := take_sum_le (hrp j) hlt (by rw [← hrr]; exact hρ i)
      nlinarith [mul_le_mul_of_nonneg_right this h2.le]
    · right
      have := take_sum_le (hrp j) hlt (hρ j)
      nlinarith [mul_le_mul_of_nonneg_right this h2.le]

/-- The response factors are positive definite with the lengths as weights. -/
theorem responses_definite {alpha : ℝ} (ha : 0 < alpha) (hU : Upright rb bs) (h : Splits bs ns rs) (hsp : Spaced rb bs) {t : ℝ} (ht : 0 < t) :
    Definite (fun i : Fin (segmentList bs ns rs).length => (segmentList bs ns rs)[i].H)
      fun i j => fls t alpha (pairOf (segmentList bs ns rs)[j] (segmentList bs ns rs)[i]) true true := by
  obtain ⟨bore, hst, hxy⟩ := segment_data hU h
  obtain ⟨segs, hsegs⟩ : ∃ segs : Fin (segmentList bs ns rs).length → Borehole, segs = fun i => (segmentList bs ns rs)[i] := ⟨_, rfl⟩
  have hg : ∀ i, (segmentList bs ns rs)[i] = segs i := fun i => by rw [hsegs]
  simp only [hg] at hst hxy ⊢
  intro Q hQ
  have hr := hU.rb_pos
  have hS := sparse_of_ten_radii hr (fun k : Fin bs.length => bs[k].x) (fun k : Fin bs.length => bs[k].y) (spaced_get hsp)
  have hl := lower_pos ha ht
  have hok : ∀ i j, (pairOf (segs j) (segs i)).Ok := fun i j => pairOf_ok (by rw [(hxy j).2.2]; exact hr) (hst.len j).le (hst.len i)
  have hint : ∀ i j, MeasureTheory.IntegrableOn (integrand (pairOf (segs j) (segs i)) true true) (Set.Ioi (lower alpha t)) := fun i j => integrand_integrableOn (hok i j) true true hl.le
  have hdis : ∀ i j s, Real.exp (-(pairOf (segs j) (segs i)).dis ^ 2 * s ^ 2) = horiz rb (fun k : Fin bs.length => bs[k].x) (fun k : Fin bs.length => bs[k].y) s (bore i) (bore j) := fun i j s => by
    show Real.exp (-((segs j).distance (segs i)) ^ 2 * s ^ 2) = _
    unfold horiz Borehole.distance
    rw [(hxy j).2.2, (hxy j).1, (hxy j).2.1, (hxy i).1, (hxy i).2.1]
    by_cases hb : bore i = bore j
    · rw [if_pos hb]
      simp [hb, hr.le]
    · rw [if_neg hb]
      have hd := spaced_get hsp (bore i) (bore j) hb
      have e : (bs[bore j].x - bs[bore i].x) ^ 2 + (bs[bore j].y - bs[bore i].y) ^ 2 = (bs[bore i].x - bs[bore j].x) ^ 2 + (bs[bore i].y - bs[bore j].y) ^ 2 := by ring
      rw [e, max_eq_right (Real.le_sqrt_of_sq_le (by nlinarith)), Real.sq_sqrt (by positivity)]
  have hfun : ∀ s ∈ Set.Ioi (lower alpha t), ∑ i, ∑ j, Q i * Q j * integrand (pairOf (segs j) (segs i)) true true s
      = vform (fun i => (segs i).D) (fun i => (segs i).H) (fun i j => horiz rb (fun k : Fin bs.length => bs[k].x) (fun k : Fin bs.length => bs[k].y) s (bore i) (bore j)) Q s / s := fun s hs => by
    unfold vform
    rw [Finset.sum_div]
    refine Finset.sum_congr rfl fun i _ => ?_
    rw [Finset.sum_div]
    refine Finset.sum_congr rfl fun j _ => ?_
    rw [integrand_vert _ (hl.trans hs).ne', hdis i j s]
    show _ * (_ * vertOf (fun i => (segs i).D) (fun i => (segs i).H) i j s / s) = _
    ring
  have hI : MeasureTheory.IntegrableOn (fun s => ∑ i, ∑ j, Q i * Q j * integrand (pairOf (segs j) (segs i)) true true s) (Set.Ioi (lower alpha t)) :=
    MeasureTheory.integrable_finsetSum _ fun i _ => MeasureTheory.integrable_finsetSum _ fun j _ => (hint i j).const_mul _
  have hpos := response_form_pos hS hst hQ hl (hI.congr_fun hfun measurableSet_Ioi)
  rw [← MeasureTheory.setIntegral_congr_fun measurableSet_Ioi hfun, MeasureTheory.integral_finsetSum _ fun i _ => MeasureTheory.integrable_finsetSum _ fun j _ => (hint i j).const_mul _] at hpos
  have e : ∀ i, (segs i).H * Q i * ∑ j, fls t alpha (pairOf (segs j) (segs i)) true true * Q j
      = 0.5 * ∫ s in Set.Ioi (lower alpha t), ∑ j, Q i * Q j * integrand (pairOf (segs j) (segs i)) true true s := fun i => by
    rw [MeasureTheory.integral_finsetSum _ fun j _ => (hint i j).const_mul _, Finset.mul_sum, Finset.mul_sum]
    refine Finset.sum_congr rfl fun j _ => ?_
    rw [MeasureTheory.integral_const_mul]
    have hH := (hst.len i).ne'
    show (segs i).H * Q i * (0.5 / (segs i).H * (∫ s in Set.Ioi (lower alpha t), integrand (pairOf (segs j) (segs i)) true true s) * Q j) = _
    field_simp
  simp only [e, ← Finset.mul_sum]
  have : (0 : ℝ) < 0.5 := by norm_num
  exact mul_pos this hpos

end Verif.Gf
