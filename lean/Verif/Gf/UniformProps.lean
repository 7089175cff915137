import Verif.Gf.UniformLemmas

/-!
# Properties of a g-function from start to end (C99)
-/

noncomputable section

namespace Verif.Gf

open Bore FLS Sol

/-- Specification: the mean over the length of all boreholes of the response to a unit heat extraction rate of all boreholes, each a single line. -/
def fieldResponse (alpha : ℝ) (bs : List Borehole) (t : ℝ) : ℝ := meanResponse (fun b c => fls t alpha (pairOf b c) true true) bs

/-- Its value at infinite time. -/
def fieldSteady (bs : List Borehole) : ℝ := meanResponse (fun b c => steady (pairOf b c) true true) bs

theorem isSegment_H {rb : ℝ} {bs : List Borehole} {ns : List ℕ} {rs : List (List ℝ)} (hU : Upright rb bs) (h : Splits bs ns rs) :
    ∀ k a s, IsSegment bs rs k a s → s.H ≠ 0 := by
  rintro k a s ⟨b, r, hb, hr, hs⟩
  have hm : s.H ∈ (b.segments r).map Borehole.H := List.mem_map_of_mem (List.mem_of_getElem? hs)
  rw [segments_eq, segsFrom_map_H] at hm
  obtain ⟨ρ, hρ, e⟩ := List.mem_map.mp hm
  have := h.pos r (List.mem_of_getElem? hr) ρ hρ
  have := hU.H b (List.mem_of_getElem? hb)
  rw [← e]; positivity

/-- The response factors of the segments are those of line sources. -/
theorem detailed_value {alpha : ℝ} {K : ℝ → Bool → Borehole → Borehole → ℝ} (hK : ∀ t s r, K t true s r = fls t alpha (pairOf s r) true true) {rb : ℝ} {bs : List Borehole}
    {ns : List ℕ} {rs : List (List ℝ)} (hU : Upright rb bs) (h : Splits bs ns rs) (t : ℝ) : (detailed (K t) bs ns rs).isSome ∧
    ∀ i j : Fin (segmentList bs ns rs).length, ((detailed (K t) bs ns rs).getD fun _ _ => 0) i j = fls t alpha (pairOf (segmentList bs ns rs)[j] (segmentList bs ns rs)[i]) true true := by
  obtain ⟨M, hM, he⟩ := detailed_vertical t alpha (hK t) h.consistent h.ne (fun b hb => by rw [hU.tilt b hb, tilted, abs_zero]; norm_num) hU.rb (isSegment_H hU h)
  refine ⟨by rw [hM]; rfl, fun i j => ?_⟩
  obtain ⟨k, a, sk, e1, hk, g1⟩ := positions_cover h.consistent i.isLt
  obtain ⟨l, b, sl, e2, hl, g2⟩ := positions_cover h.consistent j.isLt
  have v1 : (segmentList bs ns rs)[i] = sk := by
    have := List.getElem?_eq_getElem i.isLt
    rw [g1] at this
    exact (Option.some.inj this).symm
  have v2 : (segmentList bs ns rs)[j] = sl := by
    have := List.getElem?_eq_getElem j.isLt
    rw [g2] at this
    exact (Option.some.inj this).symm
  rw [v1, v2, hM, Option.getD_some, e1, e2]
  exact (he _ _ _ _ _ _ hk hl).1

/-- **C99** (value).  For a field of vertical boreholes the g-function with a uniform heat extraction rate is, over the threshold for linearization, the mean response of
the field of undivided boreholes, and is linear in time below: the numbers and lengths of the segments have no effect. -/
theorem uniform_field {alpha : ℝ} {K : ℝ → Bool → Borehole → Borehole → ℝ} (hK : ∀ t s r, K t true s r = fls t alpha (pairOf s r) true true) {rb : ℝ} {bs : List Borehole}
    {ns : List ℕ} {rs : List (List ℝ)} (hU : Upright rb bs) (h : Splits bs ns rs) {time : List ℝ} (hs : time.Pairwise (· ≤ ·)) (thr : ℝ) :
    ∃ g, uniformDetailed K bs ns rs time thr = some g ∧ g.length = time.length ∧ ∀ (k : ℕ) (t : ℝ), time[k]? = some t →
      g[k]? = some (if t ≤ thr then fieldResponse alpha bs thr * t / thr else fieldResponse alpha bs t) := by
  have hd := detailed_value hK hU h
  obtain ⟨segs, hsegs⟩ : ∃ segs, segs = segmentList bs ns rs := ⟨_, rfl⟩
  obtain ⟨F, hF⟩ : ∃ F : Fin segs.length → Fin segs.length → ℝ → ℝ, F = fun (i j : Fin segs.length) t => ((detailed (K t) bs ns rs).getD fun _ _ => 0) i j := ⟨_, rfl⟩
  have hval : ∀ i j t, F i j t = fls t alpha (pairOf segs[j] segs[i]) true true := by
    subst hsegs hF
    exact fun i j t => (hd t).2 i j
  have hmean : ∀ t, (∑ i : Fin segs.length, segs[i].H * ∑ j, F i j t) / (∑ i : Fin segs.length, segs[i].H) = fieldResponse alpha bs t := by
    intro t
    unfold fieldResponse meanResponse
    rw [← totalResponse_segments t alpha hU h true true, ← segmentList_H h, ← hsegs]
    unfold totalResponse
    have hin : ∀ i : Fin segs.length, ∑ j, F i j t = (segs.map fun b => fls t alpha (pairOf b segs[i]) true true).sum := fun i => by
      rw [Finset.sum_congr rfl fun j _ => hval i j t]
      exact Fin.sum_univ_fun_getElem segs fun b => fls t alpha (pairOf b segs[i]) true true
    rw [Finset.sum_congr rfl fun i _ => by rw [hin i]]
    congr 1
    · exact Fin.sum_univ_fun_getElem segs fun c => c.H * (segs.map fun b => fls t alpha (pairOf b c) true true).sum
    · exact Fin.sum_univ_fun_getElem segs Borehole.H
  have hu := uhtr_average (fun i : Fin segs.length => segs[i].H) (resp := fun tl i j => tl.map (F i j)) (F := F) (fun _ _ _ => rfl) hs thr
  refine ⟨uhtr (fun i : Fin segs.length => segs[i].H) (fun tl i j => tl.map (F i j)) time thr, ?_, hu.1, ?_⟩
  · unfold uniformDetailed
    dsimp only
    rw [if_pos fun t _ => (hd t).1]
    subst hsegs hF
    rfl
  · intro k t ht
    rw [hu.2 k t ht, hmean, hmean]

/-- The values at all times, as a list. -/
theorem uniform_values {alpha : ℝ} {K : ℝ → Bool → Borehole → Borehole → ℝ} (hK : ∀ t s r, K t true s r = fls t alpha (pairOf s r) true true) {rb : ℝ} {bs : List Borehole}
    {ns : List ℕ} {rs : List (List ℝ)} (hU : Upright rb bs) (h : Splits bs ns rs) {time : List ℝ} (hs : time.Pairwise (· ≤ ·)) (thr : ℝ) :
    uniformDetailed K bs ns rs time thr = some (time.map fun t => if t ≤ thr then fieldResponse alpha bs thr * t / thr else fieldResponse alpha bs t) := by
  obtain ⟨g, hg, hl, hv⟩ := uniform_field hK hU h hs thr
  rw [hg]
  congr 1
  refine List.ext_getElem? fun k => ?_
  rw [List.getElem?_map]
  rcases hk : time[k]? with _ | t
  · rw [List.getElem?_eq_none_iff] at hk
    rw [List.getElem?_eq_none_iff.mpr (by omega)]; rfl
  · rw [hv k t hk]; rfl

/-- **C99** (discretization).  Two discretizations of the same field give the same g-function. -/
theorem uniform_discretization {alpha : ℝ} {K : ℝ → Bool → Borehole → Borehole → ℝ} (hK : ∀ t s r, K t true s r = fls t alpha (pairOf s r) true true) {rb : ℝ} {bs : List Borehole}
    {ns ns' : List ℕ} {rs rs' : List (List ℝ)} (hU : Upright rb bs) (h : Splits bs ns rs) (h' : Splits bs ns' rs') {time : List ℝ} (hs : time.Pairwise (· ≤ ·)) (thr : ℝ) :
    uniformDetailed K bs ns rs time thr = uniformDetailed K bs ns' rs' time thr := by
  rw [uniform_values hK hU h hs thr, uniform_values hK hU h' hs thr]

/-! ### What the value implies -/

theorem Upright.ok {rb : ℝ} {bs : List Borehole} (h : Upright rb bs) {b c : Borehole} (hb : b ∈ bs) (hc : c ∈ bs) : (pairOf b c).Ok :=
  pairOf_ok (by rw [h.rb b hb]; exact h.rb_pos) (h.H b hb).le (h.H c hc)

theorem list_sum_lt {α : Type*} {l : List α} (hne : l ≠ []) {f g : α → ℝ} (h : ∀ x ∈ l, f x < g x) : (l.map f).sum < (l.map g).sum := by
  induction l with
  | nil => exact absurd rfl hne
  | cons x l ih =>
    rw [List.map_cons, List.map_cons, List.sum_cons, List.sum_cons]
    have hx := h x (by simp)
    cases l with
    | nil => simpa using hx
    | cons y l => exact add_lt_add hx (ih (by simp) fun z hz => h z (by simp [hz]))

theorem list_sum_le {α : Type*} {l : List α} {f g : α → ℝ} (h : ∀ x ∈ l, f x ≤ g x) : (l.map f).sum ≤ (l.map g).sum := List.sum_le_sum h

theorem Upright.total {rb : ℝ} {bs : List Borehole} (h : Upright rb bs) : 0 < (bs.map Borehole.H).sum := by
  have := list_sum_lt h.ne (f := fun _ => 0) (g := Borehole.H) h.H
  simpa using this

theorem mean_lt {rb : ℝ} {bs : List Borehole} (h : Upright rb bs) {f g : Borehole → Borehole → ℝ} (hfg : ∀ b ∈ bs, ∀ c ∈ bs, f b c < g b c) : meanResponse f bs < meanResponse g bs := by
  unfold meanResponse totalResponse
  refine div_lt_div_of_pos_right (list_sum_lt h.ne fun c hc => ?_) h.total
  exact mul_lt_mul_of_pos_left (list_sum_lt h.ne fun b hb => hfg b hb c hc) (h.H c hc)

theorem mean_le {rb : ℝ} {bs : List Borehole} (h : Upright rb bs) {f g : Borehole → Borehole → ℝ} (hfg : ∀ b ∈ bs, ∀ c ∈ bs, f b c ≤ g b c) : meanResponse f bs ≤ meanResponse g bs := by
  unfold meanResponse totalResponse
  refine div_le_div_of_nonneg_right (list_sum_le fun c hc => ?_) h.total.le
  exact mul_le_mul_of_nonneg_left (list_sum_le fun b hb => hfg b hb c hc) (h.H c hc).le

/-- **C99** (monotone).  The mean response is positive, increases with time, stays below its steady-state value and tends to it. -/
theorem field_increasing {alpha : ℝ} (ha : 0 < alpha) {rb : ℝ} {bs : List Borehole} (h : Upright rb bs) {t t' : ℝ} (ht : 0 < t) (htt : t < t') :
    0 < fieldResponse alpha bs t ∧ fieldResponse alpha bs t < fieldResponse alpha bs t' ∧ fieldResponse alpha bs t < fieldSteady bs ∧
      Filter.Tendsto (fieldResponse alpha bs) Filter.atTop (nhds (fieldSteady bs)) := by
  have hp := fun b hb c hc => (positive_increasing ha (h.ok (b := b) (c := c) hb hc) (h.H b hb) ht htt).2.2.2 (h.D b hb) (h.D c hc)
  refine ⟨?_, mean_lt h fun b hb c hc => (hp b hb c hc).2, mean_lt h fun b hb c hc => lt_steady ha (h.ok hb hc) (h.H b hb) (h.D b hb) (h.D c hc) ht, ?_⟩
  · have := mean_lt h (f := fun _ _ => 0) fun b hb c hc => (hp b hb c hc).1
    have e : meanResponse (fun _ _ => 0) bs = 0 := by simp [meanResponse, totalResponse]
    rw [e] at this
    exact this
  · unfold fieldResponse fieldSteady meanResponse totalResponse
    refine Filter.Tendsto.div_const ?_ _
    refine tendsto_list_sum bs fun c hc => ?_
    exact (tendsto_list_sum bs fun b hb => tends_to_steady ha (h.ok hb hc) true true).const_mul _

/-- **C99** (monotone, returned values).  The values of the g-function are positive and increase with time, also across the threshold for linearization. -/
theorem uniform_increasing {alpha : ℝ} (ha : 0 < alpha) {K : ℝ → Bool → Borehole → Borehole → ℝ} (hK : ∀ t s r, K t true s r = fls t alpha (pairOf s r) true true) {rb : ℝ}
    {bs : List Borehole} {ns : List ℕ} {rs : List (List ℝ)} (hU : Upright rb bs) (h : Splits bs ns rs) {time : List ℝ} (hpos : ∀ t ∈ time, 0 < t) (hs : time.Pairwise (· < ·))
    {thr : ℝ} (hthr : 0 < thr) : ∃ g, uniformDetailed K bs ns rs time thr = some g ∧ (∀ x ∈ g, 0 < x ∧ x < fieldSteady bs) ∧ g.Pairwise (· < ·) := by
  have hg := uniform_values hK hU h (hs.imp fun h => h.le) thr
  have hG := fun {t t' : ℝ} (ht : 0 < t) (htt : t < t') => field_increasing ha hU ht htt
  obtain ⟨V, hV⟩ : ∃ V : ℝ → ℝ, V = fun t => if t ≤ thr then fieldResponse alpha bs thr * t / thr else fieldResponse alpha bs t := ⟨_, rfl⟩
  have hthrG := (hG hthr (lt_add_one thr)).1
  have hmono : ∀ {t t' : ℝ}, 0 < t → t < t' → V t < V t' := by
    intro t t' ht htt
    rw [hV]
    dsimp only
    split_ifs with h1 h2 h2
    · rw [div_lt_div_iff_of_pos_right hthr]
      exact mul_lt_mul_of_pos_left htt hthrG
    · have e : fieldResponse alpha bs thr * t / thr ≤ fieldResponse alpha bs thr := by
        rw [div_le_iff₀ hthr]
        exact mul_le_mul_of_nonneg_left h1 hthrG.le
      exact e.trans_lt (hG hthr (not_le.mp h2)).2.1
    · exact absurd (htt.le.trans h2) h1
    · exact (hG ht htt).2.1
  have hb : ∀ {t : ℝ}, 0 < t → 0 < V t ∧ V t < fieldSteady bs := by
    intro t ht
    rw [hV]
    dsimp only
    split_ifs with h1
    · refine ⟨by positivity, lt_of_le_of_lt ?_ (hG hthr (lt_add_one thr)).2.2.1⟩
      rw [div_le_iff₀ hthr]
      exact mul_le_mul_of_nonneg_left h1 hthrG.le
    · exact ⟨(hG ht (lt_add_one t)).1, (hG ht (lt_add_one t)).2.2.1⟩
  rw [← hV] at hg
  refine ⟨_, hg, ?_, ?_⟩
  · intro x hx
    obtain ⟨t, ht, rfl⟩ := List.mem_map.mp hx
    exact hb (hpos t ht)
  · rw [List.pairwise_map]
    exact hs.imp_of_mem fun h1 _ h => hmono (hpos _ h1) h

/-! ### Layout of the field -/

theorem map_response (h : Borehole → Borehole → ℝ) (f : Borehole → Borehole) (bs : List Borehole) (hH : ∀ b ∈ bs, (f b).H = b.H) :
    meanResponse h (bs.map f) = meanResponse (fun b c => h (f b) (f c)) bs := by
  unfold meanResponse totalResponse
  simp only [List.map_map, Function.comp_def]
  rw [List.map_congr_left fun b hb => hH b hb, List.map_congr_left (g := fun c => c.H * (bs.map fun b => h (f b) (f c)).sum) fun c hc => by rw [hH c hc]]

/-- **C99** (order).  The order of the boreholes has no effect. -/
theorem field_perm (alpha : ℝ) {bs bs' : List Borehole} (h : bs.Perm bs') (t : ℝ) : fieldResponse alpha bs t = fieldResponse alpha bs' t := by
  unfold fieldResponse meanResponse totalResponse
  rw [(h.map Borehole.H).sum_eq, (h.map _).sum_eq]
  congr 2
  refine List.map_congr_left fun c _ => ?_
  rw [(h.map _).sum_eq]

/-- A displacement: lengths, depths and radii are kept; horizontal distances as well. -/
structure Displacement (f : Borehole → Borehole) : Prop where
  H : ∀ b, (f b).H = b.H
  D : ∀ b, (f b).D = b.D
  rb : ∀ b, (f b).rb = b.rb
  dist : ∀ b c, ((f b).x - (f c).x) ^ 2 + ((f b).y - (f c).y) ^ 2 = (b.x - c.x) ^ 2 + (b.y - c.y) ^ 2

/-- **C99** (displacement).  Moving, turning or mirroring the field has no effect. -/
theorem field_displaced (alpha : ℝ) {f : Borehole → Borehole} (hf : Displacement f) (bs : List Borehole) (t : ℝ) : fieldResponse alpha (bs.map f) t = fieldResponse alpha bs t := by
  unfold fieldResponse
  rw [map_response _ _ _ fun b _ => hf.H b]
  congr 1
  funext b c
  congr 1
  simp only [pairOf, Borehole.distance, hf.H, hf.D, hf.rb, hf.dist]

/-- **C99** (spacing).  If no two boreholes are closer to each other than in another field of the same boreholes, the response is not larger. -/
theorem field_spread {alpha : ℝ} (ha : 0 < alpha) {rb : ℝ} {bs : List Borehole} (h : Upright rb bs) {f : Borehole → Borehole} (hH : ∀ b ∈ bs, (f b).H = b.H) (hD : ∀ b ∈ bs, (f b).D = b.D)
    (hd : ∀ b ∈ bs, ∀ c ∈ bs, b.distance c ≤ (f b).distance (f c)) {t : ℝ} (ht : 0 < t) : fieldResponse alpha (bs.map f) t ≤ fieldResponse alpha bs t := by
  unfold fieldResponse
  rw [map_response _ _ _ hH]
  refine mean_le h fun b hb c hc => ?_
  have := decreasing ha (h.ok hb hc) (h.H b hb) true (fun _ => ⟨h.D b hb, h.D c hc⟩) ht (distance_pos (by rw [h.rb b hb]; exact h.rb_pos) c) (hd b hb c hc)
  simpa [Pair.at, pairOf, hH b hb, hH c hc, hD b hb, hD c hc] using this

/-- **C99** (interactions).  The response of a field of boreholes of the same dimensions is at least that of one of its boreholes alone, and at most as many times that as there
are boreholes. -/
theorem field_bounds {alpha : ℝ} (ha : 0 < alpha) {rb : ℝ} {bs : List Borehole} (h : Upright rb bs) {b0 : Borehole} (hb0 : b0 ∈ bs) (heq : ∀ b ∈ bs, b.H = b0.H ∧ b.D = b0.D) {t : ℝ} (ht : 0 < t) :
    fieldResponse alpha [b0] t ≤ fieldResponse alpha bs t ∧ fieldResponse alpha bs t ≤ bs.length * fieldResponse alpha [b0] t := by
  have hH0 := h.H b0 hb0
  have hs : fieldResponse alpha [b0] t = fls t alpha (pairOf b0 b0) true true := by
    simp [fieldResponse, meanResponse, totalResponse, mul_div_cancel_left₀ _ hH0.ne']
  have hself : ∀ b ∈ bs, b.distance b = rb := fun b hb => by
    simp [Borehole.distance, h.rb b hb, h.rb_pos.le]
  have hle : ∀ b ∈ bs, ∀ c ∈ bs, fls t alpha (pairOf b c) true true ≤ fls t alpha (pairOf b0 b0) true true := fun b hb c hc => by
    have := decreasing ha (h.ok hb0 hb0) hH0 true (fun _ => ⟨h.D b0 hb0, h.D b0 hb0⟩) ht (d := rb) (e := b.distance c) h.rb_pos (by
      unfold Borehole.distance; rw [h.rb b hb]; exact le_max_left _ _)
    simpa [Pair.at, pairOf, (heq b hb).1, (heq b hb).2, (heq c hc).1, (heq c hc).2, hself b0 hb0] using this
  have hdiag : ∀ b ∈ bs, fls t alpha (pairOf b b) true true = fls t alpha (pairOf b0 b0) true true := fun b hb => by
    congr 1
    simp [pairOf, (heq b hb).1, (heq b hb).2, hself b hb, hself b0 hb0]
  have hposv : ∀ b ∈ bs, ∀ c ∈ bs, 0 < fls t alpha (pairOf b c) true true := fun b hb c hc =>
    ((positive_increasing ha (h.ok hb hc) (h.H b hb) ht (lt_add_one t)).2.2.2 (h.D b hb) (h.D c hc)).1
  obtain ⟨v, hv⟩ : ∃ v, v = fls t alpha (pairOf b0 b0) true true := ⟨_, rfl⟩
  rw [hs, ← hv]
  unfold fieldResponse meanResponse totalResponse
  rw [le_div_iff₀ h.total, div_le_iff₀ h.total, ← List.sum_map_mul_left, ← List.sum_map_mul_left]
  constructor
  · refine list_sum_le fun c hc => ?_
    rw [mul_comm]
    refine mul_le_mul_of_nonneg_left ?_ (h.H c hc).le
    rw [hv, ← hdiag c hc]
    exact List.single_le_sum (by
      intro x hx
      obtain ⟨b, hb, rfl⟩ := List.mem_map.mp hx
      exact (hposv b hb c hc).le) _ (List.mem_map_of_mem hc)
  · refine list_sum_le fun c hc => ?_
    rw [mul_comm]
    refine mul_le_mul_of_nonneg_right ?_ (h.H c hc).le
    have := list_sum_le (l := bs) (f := fun b => fls t alpha (pairOf b c) true true) (g := fun _ => v) fun b hb => by rw [hv]; exact hle b hb c hc
    simpa using this

/-! ### Scale -/

/-- All lengths of a pair multiplied by a factor. -/
def Pair.scaleBy (c : ℝ) (g : Pair) : Pair := ⟨c * g.dis, c * g.H1, c * g.D1, c * g.H2, c * g.D2⟩

theorem integrand_scale {c : ℝ} (hc : 0 < c) (g : Pair) (rea img : Bool) (s : ℝ) : integrand (Pair.scaleBy c g) rea img s = c ^ 2 * integrand g rea img (c * s) := by
  have e : ∀ q : ℝ, c * q * s = q * (c * s) := fun q => by ring
  have hz : s ^ (-2 : ℤ) = c ^ 2 * (c * s) ^ (-2 : ℤ) := by
    rw [mul_zpow, zpow_neg, zpow_neg, ← mul_assoc]
    norm_cast
    field_simp
  have hx : -(c * g.dis) ^ 2 * s ^ 2 = -g.dis ^ 2 * (c * s) ^ 2 := by ring
  have hA : (Pair.scaleBy c g).qAll = g.qAll.map (c * ·) := by simp [Pair.scaleBy, Pair.qAll]; refine ⟨?_, ?_, ?_, ?_, ?_, ?_, ?_, ?_⟩ <;> ring
  have hR : (Pair.scaleBy c g).qRea = g.qRea.map (c * ·) := by simp [Pair.scaleBy, Pair.qRea]; refine ⟨?_, ?_, ?_, ?_⟩ <;> ring
  have hI : (Pair.scaleBy c g).qImg = g.qImg.map (c * ·) := by simp [Pair.scaleBy, Pair.qImg]; refine ⟨?_, ?_, ?_, ?_⟩ <;> ring
  unfold integrand
  rw [hA, hR, hI, show (Pair.scaleBy c g).dis = c * g.dis from rfl, hx, hz]
  simp only [List.map_map, Function.comp_def, e]
  split_ifs <;> ring

theorem fls_scale {c : ℝ} (hc : 0 < c) (t alpha : ℝ) (g : Pair) (rea img : Bool) : fls (c ^ 2 * t) alpha (Pair.scaleBy c g) rea img = fls t alpha g rea img := by
  have hl : lower alpha (c ^ 2 * t) = c⁻¹ * lower alpha t := by
    unfold lower
    rw [show 4 * alpha * (c ^ 2 * t) = c ^ 2 * (4 * alpha * t) by ring, Real.sqrt_mul (by positivity), Real.sqrt_sq hc.le]
    field_simp
  unfold fls quad
  dsimp only
  rw [hl, MeasureTheory.setIntegral_congr_fun measurableSet_Ioi fun s _ => integrand_scale hc g rea img s, MeasureTheory.integral_const_mul,
    MeasureTheory.integral_comp_mul_left_Ioi _ _ hc, mul_inv_cancel_left₀ hc.ne', smul_eq_mul]
  show 0.5 / (c * g.H2) * _ = _
  field_simp

/-- A borehole with all lengths multiplied by a factor. -/
def scaleBore (c : ℝ) (b : Borehole) : Borehole := ⟨c * b.H, c * b.D, c * b.rb, c * b.x, c * b.y, b.tilt, b.orientation⟩

theorem pairOf_scale {c : ℝ} (hc : 0 < c) (a b : Borehole) : pairOf (scaleBore c a) (scaleBore c b) = Pair.scaleBy c (pairOf a b) := by
  simp only [pairOf, Pair.scaleBy, scaleBore, Borehole.distance, Pair.mk.injEq, and_true]
  rw [mul_max_of_nonneg _ _ hc.le, show (c * a.x - c * b.x) ^ 2 + (c * a.y - c * b.y) ^ 2 = c ^ 2 * ((a.x - b.x) ^ 2 + (a.y - b.y) ^ 2) by ring, Real.sqrt_mul (by positivity), Real.sqrt_sq hc.le]

/-- **C99** (scale).  The response only depends on the ratios of lengths and on `αt` over a length squared: with all lengths multiplied by `c` it is found at the time `c²t`. -/
theorem field_scale {c : ℝ} (hc : 0 < c) (alpha : ℝ) (bs : List Borehole) (t : ℝ) : fieldResponse alpha (bs.map (scaleBore c)) (c ^ 2 * t) = fieldResponse alpha bs t := by
  unfold fieldResponse meanResponse totalResponse
  simp only [List.map_map, Function.comp_def, pairOf_scale hc, fls_scale hc]
  have e1 : (bs.map fun b => (scaleBore c b).H).sum = c * (bs.map Borehole.H).sum := by rw [← List.sum_map_mul_left]; rfl
  have e2 : (bs.map fun d => (scaleBore c d).H * (bs.map fun b => fls t alpha (pairOf b d) true true).sum).sum
      = c * (bs.map fun d => d.H * (bs.map fun b => fls t alpha (pairOf b d) true true).sum).sum := by
    rw [← List.sum_map_mul_left]
    congr 1
    refine List.map_congr_left fun d _ => ?_
    rw [← mul_assoc]; rfl
  rw [e1, e2, mul_div_mul_left _ _ hc.ne']

/-! ### A concrete case: two boreholes of different dimensions, the first in two segments -/

def fieldA : List Borehole := [⟨100, 4, 1 / 10, 0, 0, 0, 0⟩, ⟨150, 2, 1 / 10, 5, 0, 0, 0⟩]

def lineKernel (t : ℝ) (_ : Bool) (s r : Borehole) : ℝ := fls t (1 / 10 ^ 6) (pairOf s r) true true

theorem fieldA_upright : Upright (1 / 10) fieldA := by
  constructor <;> simp [fieldA]

theorem fieldA_splits : Splits fieldA [2, 1] [[1 / 4, 3 / 4], [1]] := by
  refine ⟨⟨?_, ?_⟩, ?_, ?_⟩ <;> (simp [fieldA]; try norm_num)

theorem fieldA_whole : Splits fieldA [1, 1] [[1], [1]] := by
  refine ⟨⟨?_, ?_⟩, ?_, ?_⟩ <;> simp [fieldA]

/-- Three times, the first under the threshold. -/
example : ∃ g, uniformDetailed lineKernel fieldA [2, 1] [[1 / 4, 3 / 4], [1]] [10 ^ 3, 10 ^ 6, 10 ^ 9] (10 ^ 4) = some g ∧ g.length = 3 ∧
    g[0]? = some (fieldResponse (1 / 10 ^ 6) fieldA (10 ^ 4) * 10 ^ 3 / 10 ^ 4) ∧ g[2]? = some (fieldResponse (1 / 10 ^ 6) fieldA (10 ^ 9)) := by
  obtain ⟨g, h1, h2, h3⟩ := uniform_field (alpha := 1 / 10 ^ 6) (K := lineKernel) (fun _ _ _ => rfl) fieldA_upright fieldA_splits (time := [10 ^ 3, 10 ^ 6, 10 ^ 9]) (by simp; norm_num) (10 ^ 4)
  refine ⟨g, h1, h2, ?_, ?_⟩
  · rw [h3 0 (10 ^ 3) rfl, if_pos (by norm_num)]
  · rw [h3 2 (10 ^ 9) rfl, if_neg (by norm_num)]

/-- The discretization has no effect. -/
example : uniformDetailed lineKernel fieldA [2, 1] [[1 / 4, 3 / 4], [1]] [10 ^ 6] 0 = uniformDetailed lineKernel fieldA [1, 1] [[1], [1]] [10 ^ 6] 0 :=
  uniform_discretization (alpha := 1 / 10 ^ 6) (fun _ _ _ => rfl) fieldA_upright fieldA_splits fieldA_whole (by simp) 0

example : ∃ g, uniformDetailed lineKernel fieldA [2, 1] [[1 / 4, 3 / 4], [1]] [10 ^ 3, 10 ^ 6, 10 ^ 9] (10 ^ 4) = some g ∧ (∀ x ∈ g, 0 < x ∧ x < fieldSteady fieldA) ∧ g.Pairwise (· < ·) :=
  uniform_increasing (alpha := 1 / 10 ^ 6) (by norm_num) (fun _ _ _ => rfl) fieldA_upright fieldA_splits (by simp) (by simp; norm_num) (by norm_num)

example : fieldResponse (1 / 10 ^ 6) fieldA (10 ^ 6) < fieldResponse (1 / 10 ^ 6) fieldA (10 ^ 7) := (field_increasing (by norm_num) fieldA_upright (by norm_num) (by norm_num)).2.1

example (t : ℝ) : fieldResponse (1 / 10 ^ 6) fieldA t = fieldResponse (1 / 10 ^ 6) fieldA.reverse t := field_perm _ (List.reverse_perm _).symm t

/-- A quarter turn and a shift. -/
def turn (b : Borehole) : Borehole := ⟨b.H, b.D, b.rb, 3 - b.y, 7 + b.x, b.tilt, b.orientation⟩

theorem turn_displacement : Displacement turn := ⟨fun _ => rfl, fun _ => rfl, fun _ => rfl, fun b c => by simp only [turn]; ring⟩

example (t : ℝ) : fieldResponse (1 / 10 ^ 6) (fieldA.map turn) t = fieldResponse (1 / 10 ^ 6) fieldA t := field_displaced _ turn_displacement _ t

/-- Twice the spacing. -/
def spread (b : Borehole) : Borehole := ⟨b.H, b.D, b.rb, 2 * b.x, 2 * b.y, b.tilt, b.orientation⟩

example : fieldResponse (1 / 10 ^ 6) (fieldA.map spread) (10 ^ 6) ≤ fieldResponse (1 / 10 ^ 6) fieldA (10 ^ 6) := by
  refine field_spread (alpha := 1 / 10 ^ 6) (by norm_num) fieldA_upright (f := spread) (fun _ _ => rfl) (fun _ _ => rfl) (fun b _ c _ => ?_) (t := 10 ^ 6) (by norm_num)
  unfold Borehole.distance spread
  refine max_le_max le_rfl (Real.sqrt_le_sqrt ?_)
  nlinarith [sq_nonneg (b.x - c.x), sq_nonneg (b.y - c.y)]

/-- Two boreholes of the same dimensions. -/
def fieldB : List Borehole := [⟨100, 4, 1 / 10, 0, 0, 0, 0⟩, ⟨100, 4, 1 / 10, 5, 0, 0, 0⟩]

theorem fieldB_upright : Upright (1 / 10) fieldB := by
  constructor <;> simp [fieldB]

example : fieldResponse (1 / 10 ^ 6) fieldB (10 ^ 6) ≤ 2 * fieldResponse (1 / 10 ^ 6) [⟨100, 4, 1 / 10, 0, 0, 0, 0⟩] (10 ^ 6) := by
  have := (field_bounds (alpha := 1 / 10 ^ 6) (by norm_num) fieldB_upright (b0 := ⟨100, 4, 1 / 10, 0, 0, 0, 0⟩) (by simp [fieldB]) (by simp [fieldB]) (t := 10 ^ 6) (by norm_num)).2
  exact_mod_cast this

example : fieldResponse (1 / 10 ^ 6) (fieldA.map (scaleBore 2)) (2 ^ 2 * 3600) = fieldResponse (1 / 10 ^ 6) fieldA 3600 := field_scale (by norm_num) _ _ _

end Verif.Gf
