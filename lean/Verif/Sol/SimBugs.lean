import Verif.Sol.SimUniform
import Verif.FLS.InclProps

/-!
# Cases in which the `Similarities` solver does not evaluate the pair of segments itself (C27, C28)
-/

noncomputable section

namespace Verif.Sol

open Bore Classical

namespace Sim

/-! ### C27: boreholes of the same length at different depths -/

/-- Three boreholes of 100 m in a row, the middle one buried 2 m deeper, two segments each, default tolerances. -/
def swap3 : Sim :=
  ⟨3, fun k => ⟨100, if k = 1 then 4 else 2, 3 / 40, 5 * k, 0, 0, 0⟩, fun _ => 2, fun _ => uniformRatios 2, 1 / 10 ^ 6, 1 / 100⟩

theorem swap3_valid : swap3.Valid where
  size := by norm_num [swap3]
  vert := fun _ k _ => by simp [vertical, swap3, tilted]
  segs := fun _ _ => by norm_num [swap3]
  rad := fun _ _ => by norm_num [swap3]
  dis := by norm_num [swap3]

theorem allclose_self {rtol : ℝ} (h : 0 ≤ rtol) (a : List ℝ) : allclose rtol a a := by
  intro x hx
  obtain ⟨i, hi, rfl⟩ := List.mem_iff_getElem.mp hx
  simp only [List.getElem_zip, sub_self, abs_zero]
  positivity

theorem swap3_ratios : swap3.equalRatios := fun k _ => ⟨rfl, allclose_self (by norm_num) _⟩

theorem swap3_groups : swap3.groups.pairV = [[(0, 1), (1, 2)], [(0, 2)]] := by
  have v : ∀ k, vertical (swap3.bore k) = true := fun k => by simp [vertical, swap3, tilted]
  have h1 : ¬ swap3.okPair (cmpVertical swap3.tol) (0, 2) (0, 1) := by
    rintro ⟨⟨-, -, h⟩, -⟩
    norm_num [swap3, abs_lt] at h
  have h2 : ¬ swap3.okPair (cmpVertical swap3.tol) (2, 0) (0, 1) := by
    rintro ⟨⟨-, -, h⟩, -⟩
    norm_num [swap3, abs_lt] at h
  have h3 : swap3.okPair (cmpVertical swap3.tol) (1, 2) (0, 1) := by
    refine ⟨⟨⟨⟨?_, ?_⟩, .inr ⟨?_, ?_⟩⟩, ⟨?_, ?_⟩, ?_⟩, .inl swap3_ratios⟩ <;> norm_num [swap3]
  have hp : swap3.pairs = [(0, 1), (0, 2), (1, 2)] := by decide
  unfold groups
  rw [if_pos (show swap3.N > 1 by norm_num [swap3]), hp]
  simp only [List.foldl_cons, List.foldl_nil, pairStep, v, Bool.and_self, if_true, addPair, List.headD_cons, Prod.swap_prod_mk, h1, h2, h3, if_false, List.cons_append, List.nil_append]

theorem swap3_distance (k l : ℕ) : (swap3.bore k).distance (swap3.bore l) = max (3 / 40) (5 * ((|(k : ℤ) - l| : ℤ) : ℝ)) := by
  unfold Borehole.distance swap3
  congr 1
  have : ((5 * (k : ℝ) - 5 * l) ^ 2 + ((0 : ℝ) - 0) ^ 2) = (5 * ((|(k : ℤ) - l| : ℤ) : ℝ)) ^ 2 := by
    push_cast
    rw [mul_pow, sq_abs]
    ring
  rw [this, Real.sqrt_sq (by positivity)]

theorem swap3_seg {k a : ℕ} (ha : a < 2) : (swap3.seg k a).H = 50 ∧ (swap3.seg k a).D = (if k = 1 then 4 else 2) + a * 50 := by
  obtain ⟨h1, h2⟩ := swap3.seg_uniform (k := k) (n := 2) rfl rfl ha
  rw [h1, h2]
  norm_num [swap3]

/-- **C27** is violated: the response factor stored for the upper segment of the second borehole and the lower segment of the third borehole (depths 4 m and 52 m) is that of segments at
the depths 2 m and 54 m. -/
theorem similarities_reversed_depths {dist : List (ℕ × ℕ) → List ℝ × (ℕ → ℕ)} (hdist : swap3.DistOk dist) (K : FLS.Pair → ℝ) :
    FLS.pairOf (swap3.seg 1 0) (swap3.seg 2 1) = ⟨5, 50, 4, 50, 52⟩ ∧ ∃ M, swap3.factors K dist = some M ∧ M (1 + swap3.first 2) (0 + swap3.first 1) = K ⟨5, 50, 2, 50, 54⟩ := by
  have d12 : (swap3.bore 1).distance (swap3.bore 2) = 5 := by rw [swap3_distance]; norm_num
  constructor
  · unfold FLS.pairOf
    rw [swap3.seg_distance rfl rfl (by simp [swap3, uniformRatios]) (by simp [swap3, uniformRatios]), d12, (swap3_seg (by norm_num)).1, (swap3_seg (by norm_num)).1,
      (swap3_seg (by norm_num)).2, (swap3_seg (by norm_num)).2]
    norm_num
  · obtain ⟨M, hM, -, h⟩ := swap3.factors_entries K swap3_valid hdist
    refine ⟨M, hM, ?_⟩
    obtain ⟨g, hg, G, hG⟩ := h 1 (by norm_num [swap3]) 2 (by norm_num [swap3]) (by norm_num) 0 (by norm_num [swap3]) 1 (by norm_num [swap3])
    rw [swap3_groups] at hg
    simp only [List.mem_cons, List.not_mem_nil, or_false] at hg
    rcases hG with ⟨hm, hs, e⟩ | ⟨hm, -⟩
    · obtain rfl : g = [(0, 1), (1, 2)] := by
        rcases hg with rfl | rfl
        · rfl
        · simp at hm
      rw [e]
      obtain ⟨u, d, -, -, -, hu, hc, -, ⟨q, hq, h5, hall⟩, rfl⟩ := hs
      simp only [List.headD_cons] at hu hc ⊢
      have hd : d = 5 := by
        rw [hq]
        rw [d12] at h5
        refine mean_const h5 fun y hy => ?_
        obtain ⟨⟨k, hk, l, hl, rfl⟩, hz⟩ := hall y hy
        have a1 := hz 5 h5
        have a2 := (hall 5 h5).2 _ hy
        rw [swap3_distance] at a1 a2 ⊢
        simp only [swap3] at hk hl a1 a2
        interval_cases k <;> interval_cases l <;> first | (exfalso; norm_num at a1; done) | (exfalso; norm_num at a2; done) | norm_num
      obtain ⟨u1, u2⟩ := u
      rw [mem_segPairs] at hu
      have hu' : u1 < 2 ∧ u2 < 2 := hu
      have : (u1, u2) = (0, 1) := by
        rcases hc with hc | ⟨⟨-, hdel⟩, -, hsum⟩
        · exact hc
        · obtain ⟨hu1, hu2⟩ := hu'
          simp only [(swap3_seg (k := 0) hu1).2, (swap3_seg (k := 1) hu2).2, (swap3_seg (k := 0) (show 0 < 2 by norm_num)).2, (swap3_seg (k := 1) (show 1 < 2 by norm_num)).2,
            (swap3_seg (k := 0) (show 0 < 2 by norm_num)).1, (swap3_seg (k := 1) (show 1 < 2 by norm_num)).1] at hdel hsum
          interval_cases u1 <;> interval_cases u2
          · norm_num [swap3, abs_lt] at hsum
          · rfl
          · norm_num [swap3, abs_lt] at hdel
          · norm_num [swap3, abs_lt] at hsum
      obtain ⟨rfl, rfl⟩ := Prod.mk.inj this
      subst hd
      unfold geometry
      simp only [(swap3_seg (k := 0) (show 0 < 2 by norm_num)).1, (swap3_seg (k := 0) (show 0 < 2 by norm_num)).2, (swap3_seg (k := 1) (show 1 < 2 by norm_num)).1,
        (swap3_seg (k := 1) (show 1 < 2 by norm_num)).2]
      norm_num
    · rcases hg with rfl | rfl <;> simp at hm

/-- **C27** is violated: that factor is smaller than the one of the pair of segments itself, at any time. -/
theorem similarities_wrong_factor (t alpha : ℝ) {dist : List (ℕ × ℕ) → List ℝ × (ℕ → ℕ)} (hdist : swap3.DistOk dist) :
    ∃ M, swap3.factors (fun g => FLS.fls t alpha g true true) dist = some M ∧
      M (1 + swap3.first 2) (0 + swap3.first 1) < FLS.fls t alpha (FLS.pairOf (swap3.seg 1 0) (swap3.seg 2 1)) true true := by
  obtain ⟨e, M, hM, h⟩ := similarities_reversed_depths hdist fun g => FLS.fls t alpha g true true
  refine ⟨M, hM, ?_⟩
  rw [h, e]
  exact FLS.offset_decreasing t alpha (by norm_num) (by norm_num) (by norm_num) (by norm_num [abs_of_pos])

/-- Non-vacuity: distances are found for the three boreholes. -/
example : ∃ dist, swap3.DistOk dist := swap3.dist_exists swap3_valid

/-! ### C28: a single inclined borehole -/

/-- **C28** (partial).  In a field of at least two boreholes, or of a single vertical borehole, exactly the inclined boreholes are in the groups evaluated with the solution for
inclined boreholes.  Missing: a single inclined borehole, see `single_inclined`. -/
theorem inclined_groups_partial (S : Sim) (hN : 0 < S.N) (h : 1 < S.N ∨ vertical (S.bore 0) = true) {i : ℕ} (hi : i < S.N) :
    (i ∈ S.groups.selfI.flatten ↔ vertical (S.bore i) = false) ∧ (i ∈ S.groups.selfV.flatten ↔ vertical (S.bore i) = true) := by
  by_cases h1 : 1 < S.N
  · obtain ⟨-, -, ⟨-, hv⟩, -, hi'⟩ := S.groups_partition h1
    rw [hv, hi']
    simp [hi]
  · have hv := h.resolve_left h1
    obtain rfl : i = 0 := by omega
    unfold groups
    rw [if_neg h1]
    simp [hv]

/-- Segments of a borehole with uniform ratios. -/
theorem seg_uniform_tilted (S : Sim) {k n a : ℕ} (hr : S.rs k = uniformRatios n) (ha : a < n) :
    (S.seg k a).H = (S.bore k).H / n ∧ (S.seg k a).D = (S.bore k).D + a * ((S.bore k).H / n) * Real.cos (S.bore k).tilt := by
  have h : ((S.bore k).segments (S.rs k))[a]? = some ((S.bore k).segmentAt ((0 + a * (1 / (n : ℝ))) * (S.bore k).H) (1 / (n : ℝ))) := by
    rw [segments_eq, hr]
    exact segsFrom_replicate _ _ _ _ ha
  unfold seg
  rw [List.getD_eq_getElem?_getD, h]
  simp only [Option.getD_some, Borehole.segmentAt, Borehole.new]
  constructor <;> ring

/-- A single borehole of 100 m, 4 m deep and horizontal, in 12 segments. -/
def horizontal1 : Sim := ⟨1, fun _ => ⟨100, 4, 3 / 40, 0, 0, Real.pi / 2, 0⟩, fun _ => 12, fun _ => uniformRatios 12, 1 / 10 ^ 6, 1 / 100⟩

/-- **C28** is violated: a single borehole is in a group of vertical boreholes, tilted or not; the factors of any two segments of a horizontal borehole, whatever their distance, are all
equal to the factor of one vertical segment on itself. -/
theorem single_inclined {dist : List (ℕ × ℕ) → List ℝ × (ℕ → ℕ)} (K : FLS.Pair → ℝ) :
    vertical (horizontal1.bore 0) = false ∧ 0 ∉ horizontal1.groups.selfI.flatten ∧ 0 ∈ horizontal1.groups.selfV.flatten ∧
    ∃ M, horizontal1.factors K dist = some M ∧ ∀ a < 12, ∀ b < 12, M b a = K ⟨3 / 40, 25 / 3, 4, 25 / 3, 4⟩ := by
  have hg : horizontal1.groups = ⟨[[0]], [], [], []⟩ := if_neg (by norm_num [horizontal1])
  have hV : horizontal1.Valid := ⟨by norm_num [horizontal1], fun h => by norm_num [horizontal1] at h, fun _ _ => by norm_num [horizontal1], fun _ _ => by norm_num [horizontal1],
    by norm_num [horizontal1]⟩
  refine ⟨?_, by rw [hg]; simp, by rw [hg]; simp, ?_⟩
  · have := Real.pi_gt_three
    unfold vertical
    rw [Bool.not_eq_false', decide_eq_true_iff]
    unfold tilted horizontal1
    rw [abs_of_pos (by positivity)]
    norm_num
    linarith
  · obtain ⟨M, hM, h, -⟩ := horizontal1.factors_entries K hV (dist := dist) (by intro g hg'; rw [hg] at hg'; simp at hg')
    refine ⟨M, hM, fun a ha b hb => ?_⟩
    obtain ⟨G, ⟨i, ⟨u1, u2⟩, hi, -, hu, -, rfl⟩, e⟩ := h 0 (by norm_num [horizontal1]) a ha b hb
    rw [mem_segPairs] at hu
    have h0 : horizontal1.first 0 = 0 := rfl
    have e' : M b a = K (horizontal1.geometry (i, i) (horizontal1.bore i).rb (u1, u2)) := by simpa only [h0, add_zero] using e
    rw [e']
    unfold geometry
    obtain ⟨a1, a2⟩ := horizontal1.seg_uniform_tilted (k := i) (n := 12) rfl hu.1
    obtain ⟨b1, b2⟩ := horizontal1.seg_uniform_tilted (k := i) (n := 12) rfl hu.2
    simp only [a1, a2, b1, b2]
    norm_num [horizontal1]

example : ∃ M, horizontal1.factors (fun g => g.H1) (fun _ => ([], id)) = some M ∧ M 0 11 = 25 / 3 := by
  obtain ⟨-, -, -, M, hM, h⟩ := single_inclined (dist := fun _ => ([], id)) fun g => g.H1
  exact ⟨M, hM, h 11 (by norm_num) 0 (by norm_num)⟩

example : (row3.groups.selfI.flatten = []) := by
  rw [List.eq_nil_iff_forall_not_mem]
  intro i hi
  have := ((row3.groups_partition (by norm_num [row3])).2.2.2.2 i).mp hi
  norm_num [vertical, row3, tilted] at this

end Sim

end Verif.Sol
