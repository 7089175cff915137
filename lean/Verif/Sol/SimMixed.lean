import Verif.Sol.SimUniform

/-!
# Properties of the `Similarities` solver (C27): fields of boreholes of different lengths, depths and segments
-/

noncomputable section

namespace Verif.Sol

open Bore Classical

/-- Two quantities that are equal, or differ by at least the relative tolerance. -/
def Far (tol x y : ℝ) : Prop := x = y ∨ tol * (|x| + 1 / 10 ^ 30) ≤ |x - y|

theorem far_len {tol x y : ℝ} (ht : 0 < tol) (hx : 0 < x) (h : Far tol x y) (hc : |(x - y) / x| < tol) : x = y := by
  rcases h with h | h
  · exact h
  · rw [abs_div, abs_of_pos hx, div_lt_iff₀ hx] at hc
    rw [abs_of_pos hx] at h
    have : 0 < tol * (1 / 10 ^ 30) := by positivity
    linarith

theorem far_rel {tol x y : ℝ} (hx : 0 ≤ x) (h : Far tol x y) (hc : |(x - y) / (x + 1 / 10 ^ 30)| < tol) : x = y := by
  rcases h with h | h
  · exact h
  · have : 0 < x + 1 / 10 ^ 30 := by positivity
    rw [abs_div, abs_of_pos this, div_lt_iff₀ this] at hc
    rw [abs_of_nonneg hx] at h
    linarith

theorem far_diff {tol x y : ℝ} (ht : 0 < tol) (hx : x ≠ -(1 / 10 ^ 30)) (h : Far tol x y) (hc : |x - y| / |x + 1 / 10 ^ 30| < tol) : x = y := by
  rcases h with h | h
  · exact h
  · have h0 : 0 < |x + 1 / 10 ^ 30| := abs_pos.mpr fun h => hx (by linarith)
    rw [div_lt_iff₀ h0] at hc
    have h1 := abs_add_le x (1 / 10 ^ 30)
    rw [abs_of_pos (by norm_num : (0 : ℝ) < 1 / 10 ^ 30)] at h1
    have := mul_le_mul_of_nonneg_left h1 ht.le
    linarith

namespace Sim

variable (S : Sim)

/-- Two lists of ratios that are equal, or have different lengths, or have a position at which they clearly differ. -/
def FarRatios (tol : ℝ) (r s : List ℝ) : Prop :=
  r = s ∨ r.length ≠ s.length ∨ ∃ (j : ℕ) (x y : ℝ), r[j]? = some x ∧ s[j]? = some y ∧ 1 / 10 ^ 8 + max tol (1 / 10 ^ 5) * |y| < |x - y|

/-- Vertical boreholes of the same radius, with any lengths, depths and segments, whose dimensions are equal or differ by at least the tolerances. -/
structure Distinct : Prop where
  size : 0 < S.N
  tol_pos : 0 < S.tol ∧ 0 < S.disTol
  tilt : ∀ k < S.N, (S.bore k).tilt = 0
  rad : ∀ k < S.N, (S.bore k).rb = (S.bore 0).rb ∧ 0 < (S.bore k).rb
  dims : ∀ k < S.N, 0 < (S.bore k).H ∧ 0 ≤ (S.bore k).D
  ratios : ∀ k < S.N, 0 < S.ns k ∧ (S.rs k).length = S.ns k ∧ (S.rs k).sum = 1 ∧ ∀ ρ ∈ S.rs k, 0 < ρ
  lens : ∀ k < S.N, ∀ l < S.N, Far S.tol (S.bore k).H (S.bore l).H
  deps : ∀ k < S.N, ∀ l < S.N, Far S.tol (S.bore k).D (S.bore l).D
  sums : ∀ k < S.N, ∀ l < S.N, ∀ m < S.N, ∀ n < S.N, Far S.tol ((S.bore l).D + (S.bore k).D) ((S.bore n).D + (S.bore m).D)
  diffs : ∀ k < S.N, ∀ l < S.N, ∀ m < S.N, ∀ n < S.N, Far S.tol ((S.bore l).D - (S.bore k).D) ((S.bore n).D - (S.bore m).D)
  grain : ∀ k < S.N, ∀ l < S.N, (S.bore l).D - (S.bore k).D ≠ -(1 / 10 ^ 30)
  order : ∀ k < S.N, ∀ l < S.N, (S.bore k).H = (S.bore l).H → (S.bore k).D = (S.bore l).D
  ratiosFar : ∀ k < S.N, ∀ l < S.N, FarRatios S.tol (S.rs k) (S.rs l)
  uniform : ∀ k < S.N, (∃ c, S.rs k = List.replicate (S.ns k) c) ∨ ∃ x ∈ S.rs k, 1 / 10 ^ 8 + 1 / 10 ^ 6 * |(S.rs k).headD 0| < |x - (S.rs k).headD 0|
  segLens : ∀ k < S.N, ∀ l < S.N, ∀ a < S.ns k, ∀ b < S.ns l, Far S.tol (S.seg k a).H (S.seg l b).H
  segDeps : ∀ k < S.N, ∀ l < S.N, ∀ a < S.ns k, ∀ a' < S.ns k, ∀ b < S.ns l, ∀ b' < S.ns l,
    Far S.tol ((S.seg l b).D + (S.seg k a).D) ((S.seg l b').D + (S.seg k a').D) ∧ Far S.tol ((S.seg l b).D - (S.seg k a).D) ((S.seg l b').D - (S.seg k a').D) ∧
      Far S.tol |(S.seg l b).D - (S.seg k a).D| |(S.seg l b').D - (S.seg k a').D| ∧ (S.seg l b).D - (S.seg k a).D ≠ -(1 / 10 ^ 30)

/-- … and distances that are equal or differ by more than the tolerance. -/
structure Separated : Prop extends S.Distinct where
  dist : ∀ k < S.N, ∀ l < S.N, ∀ m < S.N, ∀ n < S.N, (S.bore k).distance (S.bore l) < (S.bore m).distance (S.bore n) →
    (1 + S.disTol) * (S.bore k).distance (S.bore l) ≤ (S.bore m).distance (S.bore n)

theorem mem_zip_replicate {x c : ℝ} {l : List ℝ} (h : x ∈ l) : (x, c) ∈ List.zip l (List.replicate l.length c) := by
  induction l with
  | nil => simp at h
  | cons y l ih =>
    rw [List.length_cons, List.replicate_succ, List.zip_cons_cons]
    rcases List.mem_cons.mp h with rfl | h
    · exact List.mem_cons_self
    · exact List.mem_cons_of_mem _ (ih h)

theorem mem_zip_of_getElem? {x y : ℝ} {l l' : List ℝ} {j : ℕ} (h : l[j]? = some x) (h' : l'[j]? = some y) : (x, y) ∈ List.zip l l' := by
  have : (List.zip l l')[j]? = some (x, y) := by
    rw [List.getElem?_zip_eq_some]
    exact ⟨h, h'⟩
  exact List.mem_of_getElem? this

/-- Close lists of ratios of a separated field are equal. -/
theorem FarRatios.eq {tol rtol : ℝ} {r s : List ℝ} (h : FarRatios tol r s) (hl : r.length = s.length) (hr : rtol ≤ max tol (1 / 10 ^ 5)) (hc : allclose rtol r s) : r = s := by
  rcases h with h | h | ⟨j, x, y, hx, hy, h⟩
  · exact h
  · exact absurd hl h
  · have := hc _ (mem_zip_of_getElem? hx hy)
    simp only at this
    have := mul_le_mul_of_nonneg_right hr (abs_nonneg y)
    linarith

theorem Distinct.sameRatios {S : Sim} (h : S.Distinct) {k m : ℕ} (hk : k < S.N) (hm : m < S.N) (hc : S.equalRatios ∨ S.sameRatios k m) : S.rs k = S.rs m := by
  have len : ∀ i < S.N, (S.rs i).length = S.ns i := fun i hi => (h.ratios i hi).2.1
  rcases hc with hc | ⟨hn, hc⟩
  · obtain ⟨a1, a2⟩ := hc k hk
    obtain ⟨b1, b2⟩ := hc m hm
    rw [(h.ratiosFar k hk 0 h.size).eq (by rw [len k hk, len 0 h.size, a1]) (le_max_right _ _) a2,
      (h.ratiosFar m hm 0 h.size).eq (by rw [len m hm, len 0 h.size, b1]) (le_max_right _ _) b2]
  · exact (h.ratiosFar k hk m hm).eq (by rw [len k hk, len m hm, hn]) (le_max_left _ _) hc

/-- The length of a segment. -/
theorem segsFrom_len {b : Borehole} {z : ℝ} {r : List ℝ} {s : Borehole} (h : s ∈ segsFrom b z r) : ∃ ρ ∈ r, s.H = ρ * b.H := by
  induction r generalizing z with
  | nil => simp [segsFrom] at h
  | cons ρ r ih =>
    rcases List.mem_cons.mp h with rfl | h
    · exact ⟨ρ, List.mem_cons_self, rfl⟩
    · obtain ⟨ρ', h1, h2⟩ := ih h
      exact ⟨ρ', List.mem_cons_of_mem _ h1, h2⟩

theorem segsFrom_dep {b : Borehole} (hz : 0 ≤ b.H) (ht : b.tilt = 0) {z : ℝ} {r : List ℝ} (h0 : 0 ≤ z) (hr : ∀ ρ ∈ r, 0 < ρ) {s : Borehole} (h : s ∈ segsFrom b z r) : b.D ≤ s.D := by
  induction r generalizing z with
  | nil => simp [segsFrom] at h
  | cons ρ r ih =>
    rcases List.mem_cons.mp h with rfl | h
    · simp only [Borehole.segmentAt, Borehole.new, ht, Real.cos_zero]
      have := mul_nonneg h0 hz
      linarith
    · exact ih (z := z + ρ) (by linarith [hr ρ List.mem_cons_self]) (fun ρ' h' => hr ρ' (List.mem_cons_of_mem _ h')) h

theorem seg_in {k a : ℕ} (ha : a < (S.rs k).length) : S.seg k a ∈ segsFrom (S.bore k) 0 (S.rs k) := by
  rw [← segments_eq]
  exact List.mem_of_getElem? (S.seg_mem ha)

theorem Distinct.valid {S : Sim} (h : S.Distinct) : S.Valid where
  size := h.size
  vert := fun _ k hk => by simp [vertical, h.tilt k hk, tilted]
  segs := fun k hk => (h.ratios k hk).1
  rad := fun k hk => (h.rad k hk).2
  dis := h.tol_pos.2

theorem Distinct.depth {S : Sim} (h : S.Distinct) : ∀ k < S.N, ∀ a < S.ns k, 0 ≤ (S.seg k a).D := fun k hk a ha =>
  (h.dims k hk).2.trans (segsFrom_dep (h.dims k hk).1.le (h.tilt k hk) le_rfl (h.ratios k hk).2.2.2 (S.seg_in (a := a) (by rw [(h.ratios k hk).2.1]; exact ha)))

/-- In such a field the similarities that the solver finds are exact, apart from the distances. -/
theorem Distinct.same {S : Sim} (h : S.Distinct) : S.Same := by
  have ht := h.tol_pos.1
  have len : ∀ i < S.N, (S.rs i).length = S.ns i := fun i hi => (h.ratios i hi).2.1
  have segH : ∀ k < S.N, ∀ a < S.ns k, 0 < (S.seg k a).H := fun k hk a ha => by
    obtain ⟨ρ, h1, h2⟩ := segsFrom_len (S.seg_in (a := a) (by rw [len k hk]; exact ha))
    rw [h2]
    exact mul_pos ((h.ratios k hk).2.2.2 ρ h1) (h.dims k hk).1
  have segD := h.depth
  refine ⟨h.tilt, fun k hk => (h.rad k hk).1, len, segH, ?_, ?_, ?_, ?_⟩
  · rintro k hk i hi ⟨⟨c1, -, c2, -⟩, hr⟩
    exact ⟨far_len ht (h.dims k hk).1 (h.lens k hk i hi) c1, far_rel (h.dims k hk).2 (h.deps k hk i hi) c2, h.sameRatios hk hi hr⟩
  · rintro k hk l hl m hm n hn - - ⟨⟨⟨⟨c1, c2⟩, hd⟩, -, hs⟩, hr⟩
    have e1 := far_len ht (h.dims k hk).1 (h.lens k hk m hm) c1
    have e2 := far_len ht (h.dims l hl).1 (h.lens l hl n hn) c2
    have e3 := far_rel (add_nonneg (h.dims l hl).2 (h.dims k hk).2) (h.sums k hk l hl m hm n hn) hs
    have e4 : (S.bore l).D - (S.bore k).D = (S.bore n).D - (S.bore m).D := by
      rcases hd with hd | ⟨hh, -⟩
      · exact far_diff ht (h.grain k hk l hl) (h.diffs k hk l hl m hm n hn) hd
      · have e5 := far_len ht (h.dims k hk).1 (h.lens k hk l hl) hh
        have e6 := h.order k hk l hl e5
        have e7 := h.order m hm n hn (by rw [← e1, ← e2]; exact e5)
        linarith
    have er : S.rs k = S.rs m ∧ S.rs l = S.rs n := by
      rcases hr with hr | ⟨hr1, hr2⟩
      · exact ⟨h.sameRatios hk hm (.inl hr), h.sameRatios hl hn (.inl hr)⟩
      · exact ⟨h.sameRatios hk hm (.inr hr1), h.sameRatios hl hn (.inr hr2)⟩
    exact ⟨⟨e1, by linarith, er.1⟩, ⟨e2, by linarith, er.2⟩⟩
  · rintro i hi j hj ⟨p1, p2⟩ hp ⟨q1, q2⟩ hq ⟨⟨⟨c1, c2⟩, hd⟩, -, hs⟩
    obtain ⟨hp1, hp2⟩ := (S.mem_segPairs _ _ _).mp hp
    obtain ⟨hq1, hq2⟩ := (S.mem_segPairs _ _ _).mp hq
    simp only at hp1 hp2 hq1 hq2 c1 c2 hd hs
    obtain ⟨f1, f2, f3, f4⟩ := h.segDeps i hi j hj p1 hp1 q1 hq1 p2 hp2 q2 hq2
    refine ⟨far_len ht (segH i hi p1 hp1) (h.segLens i hi i hi p1 hp1 q1 hq1) c1, far_len ht (segH j hj p2 hp2) (h.segLens j hj j hj p2 hp2 q2 hq2) c2,
      far_rel (add_nonneg (segD j hj p2 hp2) (segD i hi p1 hp1)) f1 hs, ?_⟩
    rcases hd with hd | ⟨hh, hd⟩
    · exact .inl (far_diff ht f4 f2 hd)
    · exact .inr ⟨far_len ht (segH i hi p1 hp1) (h.segLens i hi j hj p1 hp1 p2 hp2) hh, far_rel (abs_nonneg _) f3 hd⟩
  · rintro m hm n hn - ⟨⟨c1, -⟩, hns, u1, u2⟩ a ha b hb
    simp only at c1 hns u1 u2
    have eH := far_len ht (h.dims n hn).1 (h.lens n hn m hm) c1
    have uni : ∀ k < S.N, S.uniformAt k → ∀ a < S.ns k, (S.seg k a).H = 1 / S.ns k * (S.bore k).H := by
      intro k hk hu a ha
      obtain ⟨c, hc⟩ : ∃ c, S.rs k = List.replicate (S.ns k) c := by
        rcases h.uniform k hk with hc | ⟨x, hx, hc⟩
        · exact hc
        · exact absurd (hu _ (mem_zip_replicate hx)) (not_le.mpr hc)
      obtain ⟨ρ, h1, h2⟩ := segsFrom_len (S.seg_in (a := a) (by rw [len k hk]; exact ha))
      have h3 := (h.ratios k hk).2.2.1
      rw [hc] at h1 h3
      rw [List.sum_replicate, nsmul_eq_mul] at h3
      rw [h2, (List.mem_replicate.mp h1).2]
      have : (0 : ℝ) < S.ns k := by exact_mod_cast (h.ratios k hk).1
      rw [one_div, ← eq_inv_of_mul_eq_one_right h3]
    rw [uni m hm u1 a ha, uni n hn u2 b hb, eH, hns]

/-- In a separated field the similarities that the solver finds are exact. -/
theorem Separated.exact {S : Sim} (h : S.Separated) : S.Exact := ⟨h.toDistinct.same, h.dist⟩

/-- **C27** (partial: error).  For every field of vertical boreholes of the same radius, of any lengths, depths, segments and distances, whose dimensions are equal or differ by at
least the tolerances and in which boreholes of the same length have the same depth, every response factor of the `Similarities` solver differs from that of the `Detailed` solver by
at most `-log (1 - disTol)`, at all positive times. -/
theorem similarities_mixed_error_partial {t alpha : ℝ} (hα : 0 < alpha) (ht : 0 < t) (h : S.Distinct) (htol : S.disTol < 1) {dist : List (ℕ × ℕ) → List ℝ × (ℕ → ℕ)} (hdist : S.DistOk dist)
    {K : Bool → Borehole → Borehole → ℝ} (hK : ∀ s r, K true s r = FLS.fls t alpha (FLS.pairOf s r) true true) :
    ∃ M M', S.factors (fun g => FLS.fls t alpha g true true) dist = some M ∧
      detailed K ((List.range S.N).map S.bore) ((List.range S.N).map S.ns) ((List.range S.N).map S.rs) = some M' ∧
      ∀ r < S.first S.N, ∀ c < S.first S.N, |M r c - M' r c| ≤ Real.log (1 / (1 - S.disTol)) :=
  S.similarities_near_detailed hα ht h.valid h.same h.depth htol hdist hK

/-- **C27** (partial).  For every field of vertical boreholes of the same radius, of any lengths, depths and segments, whose dimensions are equal or differ by at least the tolerances
and in which boreholes of the same length have the same depth, the `Similarities` solver returns the response factors of the `Detailed` solver. -/
theorem similarities_mixed_partial (t alpha : ℝ) (h : S.Separated) {dist : List (ℕ × ℕ) → List ℝ × (ℕ → ℕ)} (hdist : S.DistOk dist)
    {K : Bool → Borehole → Borehole → ℝ} (hK : ∀ s r, K true s r = FLS.fls t alpha (FLS.pairOf s r) true true) :
    ∃ M M', S.factors (fun g => FLS.fls t alpha g true true) dist = some M ∧
      detailed K ((List.range S.N).map S.bore) ((List.range S.N).map S.ns) ((List.range S.N).map S.rs) = some M' ∧
      ∀ r < S.first S.N, ∀ c < S.first S.N, M r c = M' r c :=
  S.similarities_eq_detailed t alpha h.toDistinct.valid h.exact hdist hK

/-- Boreholes of 100 m and 150 m at depths of 4 m and 2 m: the first with uniform segments, the second with uneven ones. -/
def mixed2 : Sim :=
  ⟨2, fun k => if k = 0 then ⟨100, 4, 3 / 40, 0, 0, 0, 0⟩ else ⟨150, 2, 3 / 40, 5, 0, 0, 0⟩, fun _ => 2, fun k => if k = 0 then [1 / 2, 1 / 2] else [1 / 3, 2 / 3], 1 / 10 ^ 6, 1 / 100⟩

theorem mixed2_seg : ((mixed2.seg 0 0).H = 50 ∧ (mixed2.seg 0 0).D = 4) ∧ ((mixed2.seg 0 1).H = 50 ∧ (mixed2.seg 0 1).D = 54) ∧
    ((mixed2.seg 1 0).H = 50 ∧ (mixed2.seg 1 0).D = 2) ∧ ((mixed2.seg 1 1).H = 100 ∧ (mixed2.seg 1 1).D = 52) := by
  simp only [seg, segments_eq]
  norm_num [mixed2, segsFrom, Borehole.segmentAt, Borehole.new]

theorem mixed2_separated : mixed2.Separated := by
  have hN : mixed2.N = 2 := rfl
  have hns : ∀ k, mixed2.ns k = 2 := fun _ => rfl
  have htol : mixed2.tol = 1 / 10 ^ 6 := rfl
  have hdis : mixed2.disTol = 1 / 100 := rfl
  have b0 : mixed2.bore 0 = ⟨100, 4, 3 / 40, 0, 0, 0, 0⟩ := rfl
  have b1 : mixed2.bore 1 = ⟨150, 2, 3 / 40, 5, 0, 0, 0⟩ := rfl
  have r0 : mixed2.rs 0 = [1 / 2, 1 / 2] := rfl
  have r1 : mixed2.rs 1 = [1 / 3, 2 / 3] := rfl
  obtain ⟨⟨s1, s2⟩, ⟨s3, s4⟩, ⟨s5, s6⟩, ⟨s7, s8⟩⟩ := mixed2_seg
  have two : ∀ {P : ℕ → Prop}, P 0 → P 1 → ∀ k < 2, P k := fun h0 h1 k hk => by
    interval_cases k
    · exact h0
    · exact h1
  have hd : (mixed2.bore 0).distance (mixed2.bore 0) = 3 / 40 ∧ (mixed2.bore 0).distance (mixed2.bore 1) = 5 ∧ (mixed2.bore 1).distance (mixed2.bore 0) = 5 ∧
      (mixed2.bore 1).distance (mixed2.bore 1) = 3 / 40 := by
    have h5 : √((5 : ℝ) ^ 2) = 5 := Real.sqrt_sq (by norm_num)
    have h5' : √((-5 : ℝ) ^ 2) = 5 := by rw [neg_sq]; exact h5
    rw [b0, b1]
    unfold Borehole.distance
    simp only [sub_self, sub_zero, zero_sub, ne_eq, OfNat.ofNat_ne_zero, not_false_eq_true, zero_pow, add_zero, Real.sqrt_zero, h5, h5']
    norm_num
  obtain ⟨d1, d2, d3, d4⟩ := hd
  refine ⟨?_, ?_⟩
  on_goal 1 => constructor
  case refine_1.size => rw [hN]; norm_num
  case refine_1.tol_pos => rw [htol, hdis]; norm_num
  all_goals rw [hN]
  case refine_1.tilt => exact two (by rw [b0]) (by rw [b1])
  case refine_1.rad => exact two (by rw [b0]; norm_num) (by rw [b0, b1]; norm_num)
  case refine_1.dims => exact two (by rw [b0]; norm_num) (by rw [b1]; norm_num)
  case refine_1.ratios => exact two (by rw [r0, hns]; norm_num) (by rw [r1, hns]; norm_num)
  case refine_1.lens =>
    rw [htol]
    refine two (two ?_ ?_) (two ?_ ?_) <;> simp only [b0, b1] <;> norm_num [Far]
  case refine_1.deps =>
    rw [htol]
    refine two (two ?_ ?_) (two ?_ ?_) <;> simp only [b0, b1] <;> norm_num [Far]
  case refine_1.sums =>
    rw [htol]
    refine two (two (two (two ?_ ?_) (two ?_ ?_)) (two (two ?_ ?_) (two ?_ ?_))) (two (two (two ?_ ?_) (two ?_ ?_)) (two (two ?_ ?_) (two ?_ ?_))) <;> simp only [b0, b1] <;> norm_num [Far]
  case refine_1.diffs =>
    rw [htol]
    refine two (two (two (two ?_ ?_) (two ?_ ?_)) (two (two ?_ ?_) (two ?_ ?_))) (two (two (two ?_ ?_) (two ?_ ?_)) (two (two ?_ ?_) (two ?_ ?_))) <;> simp only [b0, b1] <;> norm_num [Far]
  case refine_1.grain =>
    refine two (two ?_ ?_) (two ?_ ?_) <;> simp only [b0, b1] <;> norm_num
  case refine_1.order =>
    refine two (two ?_ ?_) (two ?_ ?_) <;> simp only [b0, b1] <;> norm_num
  case refine_1.ratiosFar =>
    rw [htol]
    refine two (two ?_ ?_) (two ?_ ?_) <;> simp only [r0, r1]
    · exact Or.inl rfl
    · exact Or.inr (.inr ⟨0, 1 / 2, 1 / 3, rfl, rfl, by rw [max_eq_right (by norm_num)]; norm_num⟩)
    · exact Or.inr (.inr ⟨0, 1 / 3, 1 / 2, rfl, rfl, by rw [max_eq_right (by norm_num)]; norm_num⟩)
    · exact Or.inl rfl
  case refine_1.uniform =>
    refine two (.inl ⟨1 / 2, by rw [r0, hns]; rfl⟩) (.inr ⟨2 / 3, by rw [r1]; simp, by rw [r1]; norm_num⟩)
  case refine_1.segLens =>
    rw [htol]
    simp only [hns]
    refine two (two (two (two ?_ ?_) (two ?_ ?_)) (two (two ?_ ?_) (two ?_ ?_))) (two (two (two ?_ ?_) (two ?_ ?_)) (two (two ?_ ?_) (two ?_ ?_))) <;> simp only [s1, s3, s5, s7] <;> norm_num [Far]
  case refine_1.segDeps =>
    rw [htol]
    simp only [hns]
    refine two (two ?_ ?_) (two ?_ ?_) <;>
    refine two (two (two (two ?_ ?_) (two ?_ ?_)) (two (two ?_ ?_) (two ?_ ?_))) (two (two (two ?_ ?_) (two ?_ ?_)) (two (two ?_ ?_) (two ?_ ?_))) <;> simp only [s2, s4, s6, s8] <;> norm_num [Far]
  case refine_2 =>
    rw [hdis]
    refine two (two (two (two ?_ ?_) (two ?_ ?_)) (two (two ?_ ?_) (two ?_ ?_))) (two (two (two ?_ ?_) (two ?_ ?_)) (two (two ?_ ?_) (two ?_ ?_))) <;> simp only [d1, d2, d3, d4] <;> norm_num

example : ∃ dist, mixed2.DistOk dist := mixed2.dist_exists mixed2_separated.toDistinct.valid

end Sim

end Verif.Sol
