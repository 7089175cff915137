import Verif.Sol.SimLemmas
import Verif.Sol.DetProps
import Verif.FLS.OffsetProps
import Verif.FLS.LogProps

/-!
# Properties of the `Similarities` solver (C26, C27, C28, C83)
-/

noncomputable section

namespace Verif.Sol

open Bore Classical

namespace Sim

variable (S : Sim)

/-! ### C26: the groups are a partition -/

/-- **C26.**  In a field of at least two boreholes, every pair of vertical boreholes occurs exactly once in the groups of vertical pairs, every other pair exactly once in the
groups of inclined pairs, every vertical borehole exactly once in the groups of vertical boreholes, and every inclined borehole exactly once in the groups of inclined
boreholes. -/
theorem groups_partition (hN : 1 < S.N) :
    ((S.groups.pairV.flatten.map ord).Nodup ∧ ∀ p, p ∈ S.groups.pairV.flatten.map ord ↔ p.1 < p.2 ∧ p.2 < S.N ∧ vertical (S.bore p.1) = true ∧ vertical (S.bore p.2) = true) ∧
    ((S.groups.pairI.flatten.map ord).Nodup ∧ ∀ p, p ∈ S.groups.pairI.flatten.map ord ↔ p.1 < p.2 ∧ p.2 < S.N ∧ ¬ (vertical (S.bore p.1) = true ∧ vertical (S.bore p.2) = true)) ∧
    (S.groups.selfV.flatten.Nodup ∧ ∀ i, i ∈ S.groups.selfV.flatten ↔ i < S.N ∧ vertical (S.bore i) = true) ∧
    (S.groups.selfI.flatten.Nodup ∧ ∀ i, i ∈ S.groups.selfI.flatten ↔ i < S.N ∧ vertical (S.bore i) = false) := by
  obtain ⟨h1, h2, -, -⟩ := S.pairs_fold S.pairs ([], [])
  obtain ⟨h3, h4, -, -⟩ := S.self_fold (List.range S.N) ([], [])
  have hm : ∀ f : ℕ × ℕ → Bool, (S.pairs.filter f).map ord = S.pairs.filter f := by
    intro f
    conv_rhs => rw [← List.map_id (S.pairs.filter f)]
    apply List.map_congr_left
    intro p hp
    exact ord_of_lt ((S.mem_pairs p).mp (List.mem_filter.mp hp).1).1
  rw [hm] at h1 h2
  simp only [List.flatten_nil, List.map_nil, List.nil_append] at h1 h2 h3 h4
  unfold groups
  rw [if_pos hN]
  refine ⟨⟨h1.nodup_iff.mpr (S.nodup_pairs.filter _), fun p => ?_⟩, ⟨h2.nodup_iff.mpr (S.nodup_pairs.filter _), fun p => ?_⟩,
    ⟨h3.nodup_iff.mpr (List.nodup_range.filter _), fun i => ?_⟩, ⟨h4.nodup_iff.mpr (List.nodup_range.filter _), fun i => ?_⟩⟩
  · rw [h1.mem_iff, List.mem_filter, mem_pairs, bothVertical, Bool.and_eq_true, and_assoc]
  · rw [h2.mem_iff, List.mem_filter, mem_pairs, bothVertical, and_assoc]
    simp only [Bool.not_eq_true', Bool.and_eq_false_iff, Bool.not_eq_true, not_and_or]
  · rw [h3.mem_iff, List.mem_filter, List.mem_range]
  · rw [h4.mem_iff, List.mem_filter, List.mem_range]
    simp

theorem pairV_headed : ∀ g ∈ S.groups.pairV, HeadedBy (S.okPair (cmpVertical S.tol)) g := by
  unfold groups
  split_ifs
  · exact (S.pairs_fold S.pairs ([], [])).2.2.1 (by simp)
  · simp

theorem selfV_headed : ∀ g ∈ S.groups.selfV, HeadedBy S.okSelf g := by
  unfold groups
  split_ifs
  · exact (S.self_fold (List.range S.N) ([], [])).2.2.1 (by simp)
  · intro g hg
    exact ⟨0, [], List.mem_singleton.mp hg, by simp⟩

theorem okPair_ns {cmp : Borehole × Borehole → Borehole × Borehole → Prop} {p q : ℕ × ℕ} (hp1 : p.1 < S.N) (hp2 : p.2 < S.N) (hq1 : q.1 < S.N) (hq2 : q.2 < S.N)
    (h : S.okPair cmp p q) : S.ns p.1 = S.ns q.1 ∧ S.ns p.2 = S.ns q.2 := by
  rcases h.2 with h | ⟨h, h'⟩
  · exact ⟨(h _ hp1).1.trans (h _ hq1).1.symm, (h _ hp2).1.trans (h _ hq2).1.symm⟩
  · exact ⟨h.1, h'.1⟩

theorem okSelf_ns {i m : ℕ} (hi : i < S.N) (hm : m < S.N) (h : S.okSelf i m) : S.ns i = S.ns m := by
  rcases h.2 with h | h
  · exact (h _ hi).1.trans (h _ hm).1.symm
  · exact h.1

theorem mem_pairV_bounds (hN : 1 < S.N) {g : List (ℕ × ℕ)} (hg : g ∈ S.groups.pairV) {p : ℕ × ℕ} (hp : p ∈ g) : p.1 < S.N ∧ p.2 < S.N ∧ p.1 ≠ p.2 := by
  have h := ((S.groups_partition hN).1.2 (ord p)).mp (List.mem_map_of_mem (List.mem_flatten.mpr ⟨g, hg, hp⟩))
  simp only [ord] at h
  omega

/-- **C26** (similarity).  All pairs of a group have the numbers of segments of the first pair and, within the tolerance, its lengths, the sum of its buried depths and the absolute
value of its difference of buried depths.  The hypotheses on lengths and depths exclude divisions by zero. -/
theorem groups_similar (hN : 1 < S.N) (ht : 0 < S.tol) (hH : ∀ k < S.N, 0 < (S.bore k).H) (hD : ∀ k < S.N, 0 ≤ (S.bore k).D)
    (hd : ∀ k < S.N, ∀ l < S.N, (S.bore l).D - (S.bore k).D ≠ -(1 / 10 ^ 30)) {m n : ℕ} {t : List (ℕ × ℕ)} (hg : (m, n) :: t ∈ S.groups.pairV) {k l : ℕ} (hp : (k, l) ∈ (m, n) :: t) :
    S.ns k = S.ns m ∧ S.ns l = S.ns n ∧
    |(S.bore k).H - (S.bore m).H| ≤ S.tol * (S.bore k).H ∧ |(S.bore l).H - (S.bore n).H| ≤ S.tol * (S.bore l).H ∧
    |((S.bore l).D + (S.bore k).D) - ((S.bore n).D + (S.bore m).D)| ≤ S.tol * ((S.bore l).D + (S.bore k).D + 1 / 10 ^ 30) ∧
    |(|(S.bore l).D - (S.bore k).D| - |(S.bore n).D - (S.bore m).D|)| ≤ S.tol * (|(S.bore l).D - (S.bore k).D| + 1 / 10 ^ 30) := by
  obtain ⟨hm, hn, -⟩ := S.mem_pairV_bounds hN hg List.mem_cons_self
  obtain ⟨hk, hl, -⟩ := S.mem_pairV_bounds hN hg hp
  simp only at hm hn hk hl
  rcases List.mem_cons.mp hp with e | hp
  · obtain ⟨rfl, rfl⟩ := Prod.mk.inj e
    have h1 := hH _ hk
    have h2 := hH _ hl
    have h3 := hD _ hk
    have h4 := hD _ hl
    simp only [sub_self, abs_zero]
    exact ⟨trivial, trivial, by positivity, by positivity, by positivity, by positivity⟩
  · obtain ⟨h, t', e, ht'⟩ := S.pairV_headed _ hg
    obtain ⟨rfl, rfl⟩ := List.cons.inj e
    have hok := ht' _ hp
    obtain ⟨h1, h2⟩ := S.okPair_ns hk hl hm hn hok
    obtain ⟨⟨⟨⟨ha, hb⟩, hdD⟩, -, hs⟩, -⟩ := hok
    simp only at ha hb hdD hs h1 h2
    have hHk := hH _ hk
    have hHl := hH _ hl
    have hDk := hD _ hk
    have hDl := hD _ hl
    refine ⟨h1, h2, ?_, ?_, ?_, ?_⟩
    · rw [abs_div, abs_of_pos hHk, div_lt_iff₀ hHk] at ha; exact ha.le
    · rw [abs_div, abs_of_pos hHl, div_lt_iff₀ hHl] at hb; exact hb.le
    · have : 0 < (S.bore l).D + (S.bore k).D + 1 / 10 ^ 30 := by positivity
      rw [abs_div, abs_of_pos this, div_lt_iff₀ this] at hs; exact hs.le
    · have hpos : 0 < |(S.bore l).D - (S.bore k).D| + 1 / 10 ^ 30 := by positivity
      rcases hdD with hdD | ⟨-, hdD⟩
      · have hne : 0 < |(S.bore l).D - (S.bore k).D + 1 / 10 ^ 30| := by
          rw [abs_pos]
          intro h0
          exact hd k hk l hl (by linarith)
        rw [div_lt_iff₀ hne] at hdD
        have h3 := abs_abs_sub_abs_le ((S.bore l).D - (S.bore k).D) ((S.bore n).D - (S.bore m).D)
        have h4 := abs_add_le ((S.bore l).D - (S.bore k).D) (1 / 10 ^ 30)
        rw [abs_of_pos (show (0 : ℝ) < 1 / 10 ^ 30 by positivity)] at h4
        have := mul_le_mul_of_nonneg_left h4 ht.le
        linarith
      · rw [abs_div, abs_of_pos hpos, div_lt_iff₀ hpos] at hdD; exact hdD.le

/-! ### Response factors of a field of vertical boreholes -/

/-- The distances are those found by `_find_distances` for every group (with some sorting of the distances). -/
def DistOk (dist : List (ℕ × ℕ) → List ℝ × (ℕ → ℕ)) : Prop :=
  ∀ g ∈ S.groups.pairV, ∃ isort init, isort.Perm (List.range (g.map fun p => (S.bore p.1).distance (S.bore p.2)).length) ∧
    (isort.map fun p : ℕ => (g.map fun p => (S.bore p.1).distance (S.bore p.2)).getD p 0).Pairwise (· ≤ ·) ∧
    FindDistances S.disTol (g.map fun p => (S.bore p.1).distance (S.bore p.2)) isort init (dist g).1 (dist g).2

/-- A field without inclined groups, with valid segments and tolerance: vertical boreholes, or a single borehole, which is always in a group of vertical boreholes (see C28). -/
structure Valid : Prop where
  size : 0 < S.N
  vert : 1 < S.N → ∀ k < S.N, vertical (S.bore k) = true
  segs : ∀ k < S.N, 0 < S.ns k
  rad : ∀ k < S.N, 0 < (S.bore k).rb
  dis : 0 < S.disTol

/-- Geometry of the pair of segments `a`, `b` of a borehole similar to `k`, or of a similar pair of segments of that borehole. -/
def SelfSimilar (k a b : ℕ) (G : FLS.Pair) : Prop :=
  ∃ i u, i < S.N ∧ (k = i ∨ S.okSelf k i) ∧ u ∈ S.segPairs i i ∧ (u = (a, b) ∨ cmpVertical S.tol (S.seg i a, S.seg i b) (S.seg i u.1, S.seg i u.2)) ∧
    G = S.geometry (i, i) (S.bore i).rb u

/-- Geometry of the pair of segments `a`, `b` of a pair of boreholes similar to the pair `(k, l)`, or of a similar pair of segments of these boreholes, at a distance within the
tolerance, the mean of distances in the field that are within the tolerance of each other. -/
def PairSimilar (mn : ℕ × ℕ) (k l a b : ℕ) (G : FLS.Pair) : Prop :=
  ∃ u d, mn.1 < S.N ∧ mn.2 < S.N ∧ ((k, l) = mn ∨ S.okPair (cmpVertical S.tol) (k, l) mn) ∧ u ∈ S.segPairs mn.1 mn.2 ∧
    (u = (a, b) ∨ cmpVertical S.tol (S.seg mn.1 a, S.seg mn.2 b) (S.seg mn.1 u.1, S.seg mn.2 u.2)) ∧
    |d - (S.bore k).distance (S.bore l)| ≤ S.disTol * (S.bore k).distance (S.bore l) ∧
    (∃ q, d = npMean q ∧ (S.bore k).distance (S.bore l) ∈ q ∧ ∀ y ∈ q, (∃ k' < S.N, ∃ l' < S.N, y = (S.bore k').distance (S.bore l')) ∧ ∀ z ∈ q, y < (1 + S.disTol) * z) ∧
    G = S.geometry mn d u

theorem exists_mem_zip {α β : Type*} {l : List α} {m : List β} (h : m.length = l.length) {x : α} (hx : x ∈ l) : ∃ y, (x, y) ∈ List.zip l m := by
  obtain ⟨i, hi, rfl⟩ := List.mem_iff_getElem.mp hx
  exact ⟨m[i]'(by omega), List.mem_iff_getElem.mpr ⟨i, by simp; omega, by simp⟩⟩

theorem self_indices_spec (gs : List (List ℕ)) (hne : ∀ g ∈ gs, (S.mapAxial (cmpVertical S.tol) (g.headD 0) (g.headD 0)).2 ≠ []) (pre : List FLS.Pair) :
    (∀ x ∈ S.selfIndicesV pre.length gs, ∃ g ∈ gs, ∃ n ∈ g, ∃ p u, p ∈ S.segPairs (g.headD 0) (g.headD 0) ∧ u ∈ S.segPairs (g.headD 0) (g.headD 0) ∧
      x.1 = p.2 + S.first n ∧ x.2.1 = p.1 + S.first n ∧ (pre ++ S.selfGeometries gs)[x.2.2]? = some (S.geometry (g.headD 0, g.headD 0) (S.bore (g.headD 0)).rb u) ∧
      (u = p ∨ cmpVertical S.tol (S.seg (g.headD 0) p.1, S.seg (g.headD 0) p.2) (S.seg (g.headD 0) u.1, S.seg (g.headD 0) u.2))) ∧
    ∀ g ∈ gs, ∀ n ∈ g, ∀ p ∈ S.segPairs (g.headD 0) (g.headD 0), ∃ kk, (p.2 + S.first n, p.1 + S.first n, kk) ∈ S.selfIndicesV pre.length gs := by
  induction gs generalizing pre with
  | nil => simp [selfIndicesV]
  | cons g gs ih =>
    obtain ⟨h1, h2, h3, h4⟩ := S.mapAxial_spec (cmpVertical S.tol) (g.headD 0) (g.headD 0)
    have h4 := h4 (hne g List.mem_cons_self)
    obtain ⟨i1, i2⟩ := ih (fun g' hg' => hne g' (List.mem_cons_of_mem _ hg'))
      (pre ++ (S.mapAxial (cmpVertical S.tol) (g.headD 0) (g.headD 0)).1.map (S.geometry (g.headD 0, g.headD 0) (S.bore (g.headD 0)).rb))
    have hlen : (pre ++ (S.mapAxial (cmpVertical S.tol) (g.headD 0) (g.headD 0)).1.map (S.geometry (g.headD 0, g.headD 0) (S.bore (g.headD 0)).rb)).length =
        pre.length + kMax (S.mapAxial (cmpVertical S.tol) (g.headD 0) (g.headD 0)).2 := by
      rw [List.length_append, List.length_map, h4]
    rw [hlen] at i1 i2
    have hgeo : pre ++ S.selfGeometries (g :: gs) =
        (pre ++ (S.mapAxial (cmpVertical S.tol) (g.headD 0) (g.headD 0)).1.map (S.geometry (g.headD 0, g.headD 0) (S.bore (g.headD 0)).rb)) ++ S.selfGeometries gs := by
      simp only [selfGeometries, List.flatMap_cons, List.append_assoc]
      rfl
    rw [hgeo]
    simp only [selfIndicesV]
    constructor
    · intro x hx
      rcases List.mem_append.mp hx with hx | hx
      · obtain ⟨n, hn, hx⟩ := List.mem_flatMap.mp hx
        obtain ⟨y, hy, rfl⟩ := List.mem_map.mp hx
        obtain ⟨u, hu, hc⟩ := h2 y hy
        refine ⟨g, List.mem_cons_self, n, hn, y.1, u, (List.of_mem_zip hy).1, h3 u (List.mem_of_getElem? hu), rfl, rfl, ?_, hc⟩
        have hlt := (List.getElem?_eq_some_iff.mp hu).1
        rw [List.getElem?_append_left (by rw [List.length_append, List.length_map]; dsimp only; omega), List.getElem?_append_right (by simp), show y.2 + pre.length - pre.length = y.2 by omega, List.getElem?_map, hu]
        rfl
      · obtain ⟨g', hg', h⟩ := i1 x hx
        exact ⟨g', List.mem_cons_of_mem _ hg', h⟩
    · intro g' hg' n hn p hp
      rcases List.mem_cons.mp hg' with rfl | hg'
      · obtain ⟨k, hk⟩ := exists_mem_zip h1 hp
        exact ⟨k + pre.length, List.mem_append_left _ (List.mem_flatMap.mpr ⟨n, hn, List.mem_map.mpr ⟨_, hk, rfl⟩⟩)⟩
      · obtain ⟨kk, hkk⟩ := i2 g' hg' n hn p hp
        exact ⟨kk, List.mem_append_right _ hkk⟩

theorem mapAxial_ne (cmp : Borehole × Borehole → Borehole × Borehole → Prop) {i j : ℕ} (hi : 0 < S.ns i) (hj : 0 < S.ns j) : (S.mapAxial cmp i j).2 ≠ [] := by
  intro h
  have h1 := (S.mapAxial_spec cmp i j).1
  have : ((0, 0) : ℕ × ℕ) ∈ S.segPairs i j := (S.mem_segPairs i j _).mpr ⟨hi, hj⟩
  rw [h] at h1
  rw [List.eq_nil_of_length_eq_zero h1.symm] at this
  simp at this

theorem selfV_bounds (hS : S.Valid) {g : List ℕ} (hg : g ∈ S.groups.selfV) : g.headD 0 < S.N ∧ ∀ n ∈ g, n < S.N ∧ (n = g.headD 0 ∨ S.okSelf n (g.headD 0)) := by
  obtain ⟨h, t, rfl, ht⟩ := S.selfV_headed g hg
  have hb : ∀ n ∈ h :: t, n < S.N := by
    by_cases hN : 1 < S.N
    · intro n hn
      exact (((S.groups_partition hN).2.2.1.2 n).mp (List.mem_flatten.mpr ⟨_, hg, hn⟩)).1
    · unfold groups at hg
      rw [if_neg hN] at hg
      rw [List.mem_singleton.mp hg]
      simpa using hS.size
  refine ⟨hb h List.mem_cons_self, fun n hn => ⟨hb n hn, ?_⟩⟩
  rcases List.mem_cons.mp hn with rfl | hn
  · exact .inl rfl
  · exact .inr (ht n hn)

theorem selfV_cover (hS : S.Valid) {k : ℕ} (hk : k < S.N) : ∃ g ∈ S.groups.selfV, k ∈ g := by
  by_cases hN : 1 < S.N
  · exact List.mem_flatten.mp (((S.groups_partition hN).2.2.1.2 k).mpr ⟨hk, hS.vert hN k hk⟩)
  · have : k = 0 := by omega
    subst this
    unfold groups
    rw [if_neg hN]
    exact ⟨[0], by simp, by simp⟩

variable (K : FLS.Pair → ℝ)

/-- The assignments for the pairs of segments of the same borehole. -/
theorem selfWrites_spec (hS : S.Valid) : ∃ ws, S.selfWritesV K S.groups.selfV = some ws ∧
    (∀ w ∈ ws, ∃ k a b G, k < S.N ∧ a < S.ns k ∧ b < S.ns k ∧ w = ⟨b + S.first k, a + S.first k, K G⟩ ∧ S.SelfSimilar k a b G) ∧
    ∀ k < S.N, ∀ a < S.ns k, ∀ b < S.ns k, ∃ w ∈ ws, w.row = b + S.first k ∧ w.col = a + S.first k := by
  obtain ⟨h1, h2⟩ := S.self_indices_spec S.groups.selfV (fun g hg => S.mapAxial_ne _ (hS.segs _ (S.selfV_bounds hS hg).1) (hS.segs _ (S.selfV_bounds hS hg).1)) []
  simp only [List.nil_append, List.length_nil] at h1 h2
  have key : ∀ x ∈ S.selfIndicesV 0 S.groups.selfV, ∃ w : Write, (match ((S.selfGeometries S.groups.selfV).map K)[x.2.2]? with
      | some v => some (⟨x.1, x.2.1, v⟩ : Write)
      | none => none) = some w ∧ w.row = x.1 ∧ w.col = x.2.1 ∧
      ∃ k a b G, k < S.N ∧ a < S.ns k ∧ b < S.ns k ∧ w = ⟨b + S.first k, a + S.first k, K G⟩ ∧ S.SelfSimilar k a b G := by
    intro x hx
    obtain ⟨g, hg, n, hn, p, u, hp, hu, e1, e2, e3, hc⟩ := h1 x hx
    obtain ⟨hi, hb⟩ := S.selfV_bounds hS hg
    obtain ⟨hnN, hsim⟩ := hb n hn
    have hns : S.ns n = S.ns (g.headD 0) := by
      rcases hsim with e | h
      · rw [e]
      · exact S.okSelf_ns hnN hi h
    obtain ⟨hp1, hp2⟩ := (S.mem_segPairs _ _ p).mp hp
    rw [List.getElem?_map, e3]
    exact ⟨_, rfl, rfl, rfl, n, p.1, p.2, _, hnN, hns ▸ hp1, hns ▸ hp2, by rw [e1, e2], g.headD 0, u, hi, hsim, hu, hc, rfl⟩
  obtain ⟨ws, hws⟩ := mapM_isSome fun x hx => ⟨_, (key x hx).choose_spec.1⟩
  refine ⟨ws, hws, fun w hw => ?_, fun k hk a ha b hb => ?_⟩
  · obtain ⟨x, hx, e⟩ := (mem_of_mapM hws w).mp hw
    obtain ⟨w', e', -, -, h⟩ := key x hx
    obtain rfl := Option.some.inj (e.symm.trans e')
    exact h
  · obtain ⟨g, hg, hkg⟩ := S.selfV_cover hS hk
    obtain ⟨hi, hbd⟩ := S.selfV_bounds hS hg
    have hns : S.ns k = S.ns (g.headD 0) := by
      rcases (hbd k hkg).2 with e | h
      · rw [e]
      · exact S.okSelf_ns hk hi h
    obtain ⟨kk, hkk⟩ := h2 g hg k hkg (a, b) ((S.mem_segPairs _ _ _).mpr ⟨hns ▸ ha, hns ▸ hb⟩)
    obtain ⟨w, e, e1, e2, -⟩ := key _ hkk
    exact ⟨w, (mem_of_mapM hws w).mpr ⟨_, hkk, e⟩, e1, e2⟩

/-- The entries of a group of pairs. -/
theorem groupEntries_spec (hS : S.Valid) (hN : 1 < S.N) {dist : List (ℕ × ℕ) → List ℝ × (ℕ → ℕ)} (hdist : S.DistOk dist) {g : List (ℕ × ℕ)} (hg : g ∈ S.groups.pairV) :
    ∃ l, S.groupEntries g (dist g).1 (dist g).2 = some l ∧
      (∀ e ∈ l, ∃ k l a b, (k, l) ∈ g ∧ k < S.N ∧ l < S.N ∧ a < S.ns k ∧ b < S.ns l ∧ e.1 = a + S.first k ∧ e.2.1 = b + S.first l ∧ S.PairSimilar (g.headD (0, 0)) k l a b e.2.2) ∧
      ∀ k l', (k, l') ∈ g → ∀ a < S.ns k, ∀ b < S.ns l', ∃ e ∈ l, e.1 = a + S.first k ∧ e.2.1 = b + S.first l' := by
  obtain ⟨h, t, hgt, hok⟩ := S.pairV_headed g hg
  have hh : g.headD (0, 0) = h := by rw [hgt]; rfl
  have hhg : h ∈ g := by rw [hgt]; exact List.mem_cons_self
  obtain ⟨hh1, hh2, -⟩ := S.mem_pairV_bounds hN hg hhg
  obtain ⟨isort, init, hperm, hsort, hfd⟩ := hdist g hg
  obtain ⟨m1, m2, m3, -⟩ := S.mapAxial_spec (cmpVertical S.tol) h.1 h.2
  have hpos : ∀ x ∈ g.map fun p => (S.bore p.1).distance (S.bore p.2), 0 < x := by
    intro x hx
    obtain ⟨p, hp, rfl⟩ := List.mem_map.mp hx
    exact lt_of_lt_of_le (hS.rad _ (S.mem_pairV_bounds hN hg hp).1) (le_max_left _ _)
  have hsim : ∀ p ∈ g, (p = h ∨ S.okPair (cmpVertical S.tol) p h) ∧ S.ns p.1 = S.ns h.1 ∧ S.ns p.2 = S.ns h.2 := by
    intro p hp
    obtain ⟨hp1, hp2, -⟩ := S.mem_pairV_bounds hN hg hp
    rw [hgt] at hp
    rcases List.mem_cons.mp hp with rfl | hp
    · exact ⟨.inl rfl, rfl, rfl⟩
    · exact ⟨.inr (hok p hp), S.okPair_ns hp1 hp2 hh1 hh2 (hok p hp)⟩
  have key : ∀ z ∈ (g.zipIdx.flatMap fun x => (List.zip (S.segPairs h.1 h.2) (S.mapAxial (cmpVertical S.tol) h.1 h.2).2).map fun y => (x, y)),
      ∃ e, (match (dist g).1[(dist g).2 z.1.2]?, (S.mapAxial (cmpVertical S.tol) h.1 h.2).1[z.2.2]? with
        | some d, some u => some (z.2.1.1 + S.first z.1.1.1, z.2.1.2 + S.first z.1.1.2, S.geometry h d u)
        | _, _ => none) = some e ∧ e.1 = z.2.1.1 + S.first z.1.1.1 ∧ e.2.1 = z.2.1.2 + S.first z.1.1.2 ∧
        ∃ k l a b, (k, l) ∈ g ∧ k < S.N ∧ l < S.N ∧ a < S.ns k ∧ b < S.ns l ∧ e.1 = a + S.first k ∧ e.2.1 = b + S.first l ∧ S.PairSimilar h k l a b e.2.2 := by
    intro z hz
    obtain ⟨x, hx, hz⟩ := List.mem_flatMap.mp hz
    obtain ⟨y, hy, rfl⟩ := List.mem_map.mp hz
    obtain ⟨p, q⟩ := x
    have hq := List.mk_mem_zipIdx_iff_getElem?.mp hx
    have hpg : p ∈ g := List.mem_of_getElem? hq
    obtain ⟨hp1, hp2, -⟩ := S.mem_pairV_bounds hN hg hpg
    obtain ⟨hs1, hs2, hs3⟩ := hsim p hpg
    obtain ⟨d, hd, hdc, Q, hQ, hxQ, hQa⟩ := distance_close hS.dis hpos hperm hsort hfd (p := q) (x := (S.bore p.1).distance (S.bore p.2)) (by rw [List.getElem?_map, hq]; rfl)
    obtain ⟨u, hu, hc⟩ := m2 y hy
    have hyp := (S.mem_segPairs _ _ _).mp (List.of_mem_zip hy).1
    simp only [hd, hu]
    refine ⟨_, rfl, rfl, rfl, p.1, p.2, y.1.1, y.1.2, hpg, hp1, hp2, hs2 ▸ hyp.1, hs3 ▸ hyp.2, rfl, rfl, u, d, hh1, hh2, hs1, m3 u (List.mem_of_getElem? hu), hc, hdc,
      ⟨Q, hQ, hxQ, fun v hv => ⟨?_, (hQa v hv).2⟩⟩, rfl⟩
    obtain ⟨p', hp', rfl⟩ := List.mem_map.mp (hQa v hv).1
    obtain ⟨hp1', hp2', -⟩ := S.mem_pairV_bounds hN hg hp'
    exact ⟨_, hp1', _, hp2', rfl⟩
  obtain ⟨l, hl⟩ := mapM_isSome fun x hx => ⟨_, (key x hx).choose_spec.1⟩
  refine ⟨l, by simp only [groupEntries, hh]; exact hl, fun e he => ?_, fun k l' hkl a ha b hb => ?_⟩
  · obtain ⟨z, hz, e1⟩ := (mem_of_mapM hl e).mp he
    obtain ⟨e', h1, -, -, h2⟩ := key z hz
    obtain rfl := Option.some.inj (e1.symm.trans h1)
    rw [hh]
    exact h2
  · obtain ⟨q, hq⟩ := List.mem_iff_getElem?.mp hkl
    obtain ⟨-, hs2, hs3⟩ := hsim _ hkl
    obtain ⟨kk, hkk⟩ := exists_mem_zip m1 ((S.mem_segPairs h.1 h.2 (a, b)).mpr ⟨hs2 ▸ ha, hs3 ▸ hb⟩)
    have hz : (((k, l'), q), ((a, b), kk)) ∈ (g.zipIdx.flatMap fun x => (List.zip (S.segPairs h.1 h.2) (S.mapAxial (cmpVertical S.tol) h.1 h.2).2).map fun y => (x, y)) :=
      List.mem_flatMap.mpr ⟨((k, l'), q), List.mk_mem_zipIdx_iff_getElem?.mpr hq, List.mem_map.mpr ⟨_, hkk, rfl⟩⟩
    obtain ⟨e, h1, h2, h3, -⟩ := key _ hz
    exact ⟨e, (mem_of_mapM hl e).mpr ⟨_, hz, h1⟩, h2, h3⟩

/-- The whole array: every entry of a pair of segments comes from a similar pair. -/
theorem factors_entries (hS : S.Valid) {dist : List (ℕ × ℕ) → List ℝ × (ℕ → ℕ)} (hdist : S.DistOk dist) :
    ∃ M, S.factors K dist = some M ∧
      (∀ k < S.N, ∀ a < S.ns k, ∀ b < S.ns k, ∃ G, S.SelfSimilar k a b G ∧ M (b + S.first k) (a + S.first k) = K G) ∧
      ∀ k < S.N, ∀ l < S.N, k ≠ l → ∀ a < S.ns k, ∀ b < S.ns l, ∃ g ∈ S.groups.pairV, ∃ G,
        ((k, l) ∈ g ∧ S.PairSimilar (g.headD (0, 0)) k l a b G ∧ M (b + S.first l) (a + S.first k) = K G) ∨
        ((l, k) ∈ g ∧ S.PairSimilar (g.headD (0, 0)) l k b a G ∧ M (b + S.first l) (a + S.first k) =
          if S.plainReverse (g.headD (0, 0)) then K G else K G * G.H2 / G.H1) := by
  obtain ⟨ws, hws, hw1, hw2⟩ := S.selfWrites_spec K hS
  have hgw : ∀ g ∈ S.groups.pairV, ∃ vs, S.groupWrites K g (dist g).1 (dist g).2 = some vs ∧
      (∀ w ∈ vs, ∃ k l a b G, (k, l) ∈ g ∧ k < S.N ∧ l < S.N ∧ k ≠ l ∧ a < S.ns k ∧ b < S.ns l ∧ S.PairSimilar (g.headD (0, 0)) k l a b G ∧
        (w = ⟨b + S.first l, a + S.first k, K G⟩ ∨
          w = ⟨a + S.first k, b + S.first l, if S.plainReverse (g.headD (0, 0)) then K G else K G * G.H2 / G.H1⟩)) ∧
      ∀ k l, (k, l) ∈ g → ∀ a < S.ns k, ∀ b < S.ns l, (∃ w ∈ vs, w.row = b + S.first l ∧ w.col = a + S.first k) ∧ ∃ w ∈ vs, w.row = a + S.first k ∧ w.col = b + S.first l := by
    intro g hg
    have hN : 1 < S.N := by
      by_contra hN
      unfold groups at hg
      rw [if_neg hN] at hg
      simp at hg
    obtain ⟨l, hl, h1, h2⟩ := S.groupEntries_spec hS hN hdist hg
    refine ⟨_, by simp only [groupWrites, hl]; rfl, fun w hw => ?_, fun k l' hkl a ha b hb => ?_⟩
    · have hw' : ∃ e ∈ l, w = ⟨e.2.1, e.1, K e.2.2⟩ ∨ w = ⟨e.1, e.2.1, if S.plainReverse (g.headD (0, 0)) then K e.2.2 else K e.2.2 * e.2.2.H2 / e.2.2.H1⟩ := by
        rcases List.mem_append.mp hw with hw | hw
        · obtain ⟨e, he, rfl⟩ := List.mem_map.mp hw
          exact ⟨e, he, .inl rfl⟩
        · obtain ⟨e, he, rfl⟩ := List.mem_map.mp hw
          exact ⟨e, he, .inr rfl⟩
      obtain ⟨e, he, hwe⟩ := hw'
      obtain ⟨k, l', a, b, hkl, hk, hl', ha, hb, e1, e2, hsim⟩ := h1 e he
      rw [e1, e2] at hwe
      exact ⟨k, l', a, b, e.2.2, hkl, hk, hl', (S.mem_pairV_bounds hN hg hkl).2.2, ha, hb, hsim, hwe⟩
    · obtain ⟨e, he, e1, e2⟩ := h2 k l' hkl a ha b hb
      exact ⟨⟨_, List.mem_append_left _ (List.mem_map_of_mem he), e2, e1⟩, ⟨_, List.mem_append_right _ (List.mem_map_of_mem he), e1, e2⟩⟩
  obtain ⟨vss, hvss⟩ := mapM_isSome fun g hg => ⟨_, (hgw g hg).choose_spec.1⟩
  refine ⟨fill (ws ++ vss.flatten) fun _ _ => 0, by simp only [factors, hws, hvss], fun k hk a ha b hb => ?_, fun k hk l hl hkl a ha b hb => ?_⟩
  · rcases fill_mem (ws ++ vss.flatten) (fun _ _ => 0) (b + S.first k) (a + S.first k) with ⟨-, h⟩ | ⟨w, hw, e1, e2, e3⟩
    · obtain ⟨w, hw, h'⟩ := hw2 k hk a ha b hb
      exact absurd h' (h w (List.mem_append_left _ hw))
    · rw [e3]
      rcases List.mem_append.mp hw with hw | hw
      · obtain ⟨k', a', b', G, hk', ha', hb', rfl, hsim⟩ := hw1 w hw
        obtain ⟨rfl, rfl⟩ := S.first_inj ha' ha e2
        obtain ⟨-, rfl⟩ := S.first_inj hb' hb e1
        exact ⟨G, hsim, rfl⟩
      · exfalso
        obtain ⟨vs, hvs, hw⟩ := List.mem_flatten.mp hw
        obtain ⟨g, hg, eg⟩ := (mem_of_mapM hvss vs).mp hvs
        obtain ⟨vs', eg', h1, -⟩ := hgw g hg
        obtain rfl := Option.some.inj (eg.symm.trans eg')
        obtain ⟨k', l', a', b', G, -, hk', hl', hne, ha', hb', -, hw'⟩ := h1 w hw
        rcases hw' with rfl | rfl
        · exact hne ((S.first_inj ha' ha e2).1.trans (S.first_inj hb' hb e1).1.symm)
        · exact hne ((S.first_inj ha' hb e1).1.trans (S.first_inj hb' ha e2).1.symm)
  · have hN : 1 < S.N := by omega
    have hord : ord (k, l) ∈ S.groups.pairV.flatten.map ord := ((S.groups_partition hN).1.2 _).mpr ⟨by simp only [ord]; omega, by simp only [ord]; omega, by
      rcases Nat.lt_or_ge k l with h | h
      · rw [ord_of_lt h]; exact ⟨hS.vert (by omega) k hk, hS.vert (by omega) l hl⟩
      · have : ord (k, l) = (l, k) := by rw [← ord_swap]; exact ord_of_lt (show l < k by omega)
        rw [this]; exact ⟨hS.vert (by omega) l hl, hS.vert (by omega) k hk⟩⟩
    rcases fill_mem (ws ++ vss.flatten) (fun _ _ => 0) (b + S.first l) (a + S.first k) with ⟨-, h⟩ | ⟨w, hw, e1, e2, e3⟩
    · exfalso
      obtain ⟨p, hp, hpo⟩ := List.mem_map.mp hord
      obtain ⟨g, hg, hpg⟩ := List.mem_flatten.mp hp
      obtain ⟨vs, eg, -, h2⟩ := hgw g hg
      have hvs : vs ∈ vss := (mem_of_mapM hvss vs).mpr ⟨g, hg, eg⟩
      have hp' : p = (k, l) ∨ p = (l, k) := by
        obtain ⟨p1, p2⟩ := p
        simp only [ord, Prod.mk.injEq] at hpo ⊢
        omega
      rcases hp' with rfl | rfl
      · obtain ⟨⟨w, hw, h'⟩, -⟩ := h2 k l hpg a ha b hb
        exact h w (List.mem_append_right _ (List.mem_flatten.mpr ⟨vs, hvs, hw⟩)) h'
      · obtain ⟨-, w, hw, h'⟩ := h2 l k hpg b hb a ha
        exact h w (List.mem_append_right _ (List.mem_flatten.mpr ⟨vs, hvs, hw⟩)) h'
    · rw [e3]
      rcases List.mem_append.mp hw with hw | hw
      · obtain ⟨k', a', b', G, hk', ha', hb', rfl, hsim⟩ := hw1 w hw
        exact absurd ((S.first_inj ha' ha e2).1.symm.trans (S.first_inj hb' hb e1).1) hkl
      · obtain ⟨vs, hvs, hw⟩ := List.mem_flatten.mp hw
        obtain ⟨g, hg, eg⟩ := (mem_of_mapM hvss vs).mp hvs
        obtain ⟨vs', eg', h1, -⟩ := hgw g hg
        obtain rfl := Option.some.inj (eg.symm.trans eg')
        obtain ⟨k', l', a', b', G, hm, hk', hl', hne, ha', hb', hsim, hw'⟩ := h1 w hw
        refine ⟨g, hg, G, ?_⟩
        rcases hw' with rfl | rfl
        · obtain ⟨rfl, rfl⟩ := S.first_inj ha' ha e2
          obtain ⟨rfl, rfl⟩ := S.first_inj hb' hb e1
          exact .inl ⟨hm, hsim, rfl⟩
        · obtain ⟨rfl, rfl⟩ := S.first_inj ha' hb e1
          obtain ⟨rfl, rfl⟩ := S.first_inj hb' ha e2
          exact .inr ⟨hm, hsim, rfl⟩

/-! ### C27: exact similarities give exact response factors -/

/-- Boreholes with the same length, depth and segments. -/
def SameDims (k m : ℕ) : Prop := (S.bore k).H = (S.bore m).H ∧ (S.bore k).D = (S.bore m).D ∧ S.rs k = S.rs m

/-- Two pairs of segments with the same lengths and sum of depths, and the same difference of depths (up to the sign when the two segments have the same length). -/
def SameResponse (p q : Borehole × Borehole) : Prop :=
  p.1.H = q.1.H ∧ p.2.H = q.2.H ∧ p.2.D + p.1.D = q.2.D + q.1.D ∧
    (p.2.D - p.1.D = q.2.D - q.1.D ∨ (p.1.H = p.2.H ∧ |p.2.D - p.1.D| = |q.2.D - q.1.D|))

/-- The similarities that the solver finds are exact, apart from the distances. -/
structure Same : Prop where
  tilt : ∀ k < S.N, (S.bore k).tilt = 0
  rad : ∀ k < S.N, (S.bore k).rb = (S.bore 0).rb
  ratios : ∀ k < S.N, (S.rs k).length = S.ns k
  len : ∀ k < S.N, ∀ a < S.ns k, 0 < (S.seg k a).H
  self : ∀ k < S.N, ∀ i < S.N, S.okSelf k i → S.SameDims k i
  pair : ∀ k < S.N, ∀ l < S.N, ∀ m < S.N, ∀ n < S.N, k ≠ l → m ≠ n → S.okPair (cmpVertical S.tol) (k, l) (m, n) → S.SameDims k m ∧ S.SameDims l n
  seg : ∀ i < S.N, ∀ j < S.N, ∀ p ∈ S.segPairs i j, ∀ q ∈ S.segPairs i j, cmpVertical S.tol (S.seg i p.1, S.seg j p.2) (S.seg i q.1, S.seg j q.2) →
    SameResponse (S.seg i p.1, S.seg j p.2) (S.seg i q.1, S.seg j q.2)
  rev : ∀ m < S.N, ∀ n < S.N, m ≠ n → S.plainReverse (m, n) → ∀ a < S.ns m, ∀ b < S.ns n, (S.seg m a).H = (S.seg n b).H

/-- The similarities that the solver finds are exact. -/
structure Exact : Prop extends S.Same where
  dist : ∀ k < S.N, ∀ l < S.N, ∀ m < S.N, ∀ n < S.N, (S.bore k).distance (S.bore l) < (S.bore m).distance (S.bore n) →
    (1 + S.disTol) * (S.bore k).distance (S.bore l) ≤ (S.bore m).distance (S.bore n)

theorem fls_sameResponse (t alpha d : ℝ) {p q : Borehole × Borehole} (h : SameResponse p q) (h1 : p.1.H ≠ 0) (rea img : Bool) :
    FLS.fls t alpha ⟨d, p.1.H, p.1.D, p.2.H, p.2.D⟩ rea img = FLS.fls t alpha ⟨d, q.1.H, q.1.D, q.2.H, q.2.D⟩ rea img := by
  obtain ⟨e1, e2, e3, e4⟩ := h
  have same : p.2.D - p.1.D = q.2.D - q.1.D → FLS.fls t alpha ⟨d, p.1.H, p.1.D, p.2.H, p.2.D⟩ rea img = FLS.fls t alpha ⟨d, q.1.H, q.1.D, q.2.H, q.2.D⟩ rea img := by
    intro e
    rw [show q.1.D = p.1.D by linarith, show q.2.D = p.2.D by linarith, e1, e2]
  rcases e4 with e4 | ⟨e5, e4⟩
  · exact same e4
  · rcases abs_eq_abs.mp e4 with e | e
    · exact same e
    · have hr := FLS.reciprocity t alpha ⟨d, p.1.H, p.1.D, p.2.H, p.2.D⟩ h1 (show p.2.H ≠ 0 by rwa [← e5]) rea img
      simp only [FLS.Pair.swap] at hr
      rw [← e1, ← e2, show q.1.D = p.2.D by linarith, show q.2.D = p.1.D by linarith]
      rw [← e5] at hr ⊢
      exact mul_left_cancel₀ h1 hr

theorem segsFrom_congr {b b' : Borehole} (hH : b.H = b'.H) (hD : b.D = b'.D) (ht : b.tilt = b'.tilt) (z : ℝ) (r : List ℝ) :
    (segsFrom b z r).map (fun s => (s.H, s.D)) = (segsFrom b' z r).map fun s => (s.H, s.D) := by
  induction r generalizing z with
  | nil => rfl
  | cons ρ r ih => simp [segsFrom, ih, Borehole.segmentAt, Borehole.new, hH, hD, ht]

/-- The fields of a segment of a borehole with tilt 0. -/
theorem seg_congr {k m : ℕ} (h : S.SameDims k m) (hk : (S.bore k).tilt = (S.bore m).tilt) {a : ℕ} (ha : a < (S.rs k).length) :
    (S.seg k a).H = (S.seg m a).H ∧ (S.seg k a).D = (S.seg m a).D := by
  have hc := segsFrom_congr h.1 h.2.1 hk 0 (S.rs k)
  have ha' : a < ((S.bore k).segments (S.rs k)).length := by rwa [segments_length]
  have ha'' : a < ((S.bore m).segments (S.rs k)).length := by rwa [segments_length]
  rw [← segments_eq, ← segments_eq] at hc
  have hg : (((S.bore k).segments (S.rs k)).map fun s => (s.H, s.D))[a]? = (((S.bore m).segments (S.rs k)).map fun s => (s.H, s.D))[a]? := by rw [hc]
  rw [List.getElem?_map, List.getElem?_map, List.getElem?_eq_getElem ha', List.getElem?_eq_getElem ha''] at hg
  simp only [Option.map_some, Option.some.injEq, Prod.mk.injEq] at hg
  unfold seg
  rw [← h.2.2, List.getD_eq_getElem _ _ ha', List.getD_eq_getElem _ _ ha'']
  exact hg

theorem segsFrom_xy {b : Borehole} (ht : b.tilt = 0) (z : ℝ) (r : List ℝ) : ∀ s ∈ segsFrom b z r, s.x = b.x ∧ s.y = b.y ∧ s.rb = b.rb := by
  induction r generalizing z with
  | nil => simp [segsFrom]
  | cons ρ r ih =>
    intro s hs
    rcases List.mem_cons.mp hs with rfl | hs
    · simp [Borehole.segmentAt, Borehole.new, ht]
    · exact ih _ s hs

theorem seg_mem {k a : ℕ} (ha : a < (S.rs k).length) : ((S.bore k).segments (S.rs k))[a]? = some (S.seg k a) := by
  have ha' : a < ((S.bore k).segments (S.rs k)).length := by rwa [segments_length]
  unfold seg
  rw [List.getD_eq_getElem _ _ ha', List.getElem?_eq_getElem ha']

theorem seg_distance {k l a b : ℕ} (hk : (S.bore k).tilt = 0) (hl : (S.bore l).tilt = 0) (ha : a < (S.rs k).length) (hb : b < (S.rs l).length) :
    (S.seg k a).distance (S.seg l b) = (S.bore k).distance (S.bore l) := by
  have h1 := segsFrom_xy hk 0 (S.rs k) (S.seg k a) (by rw [← segments_eq]; exact List.mem_of_getElem? (S.seg_mem ha))
  have h2 := segsFrom_xy hl 0 (S.rs l) (S.seg l b) (by rw [← segments_eq]; exact List.mem_of_getElem? (S.seg_mem hb))
  unfold Borehole.distance
  rw [h1.1, h1.2.1, h1.2.2, h2.1, h2.2.1]

theorem mean_const {q : List ℝ} {x : ℝ} (hx : x ∈ q) (h : ∀ y ∈ q, y = x) : npMean q = x := by
  have := mean_bounds (List.ne_nil_of_mem hx) (lo := x) (hi := x) fun y hy => by rw [h y hy]; exact ⟨le_rfl, le_rfl⟩
  linarith [this.1, this.2]

/-- The distance `d` is the mean of distances of the field within the tolerance of each other, one of which is `x`. -/
def Merged (x d : ℝ) : Prop :=
  ∃ q, d = npMean q ∧ x ∈ q ∧ ∀ y ∈ q, (∃ k' < S.N, ∃ l' < S.N, y = (S.bore k').distance (S.bore l')) ∧ ∀ z ∈ q, y < (1 + S.disTol) * z

theorem merged_exact (hE : S.Exact) {k l : ℕ} (hk : k < S.N) (hl : l < S.N) {d : ℝ} (h : S.Merged ((S.bore k).distance (S.bore l)) d) : d = (S.bore k).distance (S.bore l) := by
  obtain ⟨q, hd, hx, hq⟩ := h
  rw [hd]
  refine mean_const hx fun y hy => ?_
  obtain ⟨⟨k', hk', l', hl', rfl⟩, hz⟩ := hq y hy
  rcases lt_trichotomy ((S.bore k').distance (S.bore l')) ((S.bore k).distance (S.bore l)) with h | h | h
  · exact absurd ((hq _ hx).2 _ hy) (not_lt.mpr (hE.dist k' hk' l' hl' k hk l hl h))
  · exact h
  · exact absurd (hz _ hx) (not_lt.mpr (hE.dist k hk l hl k' hk' l' hl' h))

/-- The response factor of a similar pair of segments is that of the pair, at a distance within the tolerance. -/
theorem pairSimilar_same (hE : S.Same) (t alpha : ℝ) {m n k l a b : ℕ} {G : FLS.Pair} (hk : k < S.N) (hl : l < S.N) (hkl : k ≠ l) (hmn : m ≠ n) (ha : a < S.ns k) (hb : b < S.ns l)
    (h : S.PairSimilar (m, n) k l a b G) :
    ∃ d, |d - (S.bore k).distance (S.bore l)| ≤ S.disTol * (S.bore k).distance (S.bore l) ∧ S.Merged ((S.bore k).distance (S.bore l)) d ∧
      FLS.fls t alpha G true true = FLS.fls t alpha (S.geometry (k, l) d (a, b)) true true ∧ G.H1 = (S.seg k a).H ∧ G.H2 = (S.seg l b).H := by
  obtain ⟨u, d, hm, hn, hsim, hu, hc, hclose, hmerged, rfl⟩ := h
  refine ⟨d, hclose, hmerged, ?_⟩
  simp only at hm hn hu hc
  have hdims : S.SameDims k m ∧ S.SameDims l n := by
    rcases hsim with e | h
    · obtain ⟨rfl, rfl⟩ := Prod.mk.inj e
      exact ⟨⟨rfl, rfl, rfl⟩, ⟨rfl, rfl, rfl⟩⟩
    · exact hE.pair k hk l hl m hm n hn hkl hmn h
  have hns1 : S.ns k = S.ns m := by rw [← hE.ratios k hk, ← hE.ratios m hm, hdims.1.2.2]
  have hns2 : S.ns l = S.ns n := by rw [← hE.ratios l hl, ← hE.ratios n hn, hdims.2.2.2]
  obtain ⟨s1, s2⟩ := S.seg_congr hdims.1 (by rw [hE.tilt k hk, hE.tilt m hm]) (a := a) (by rw [hE.ratios k hk]; exact ha)
  obtain ⟨s3, s4⟩ := S.seg_congr hdims.2 (by rw [hE.tilt l hl, hE.tilt n hn]) (a := b) (by rw [hE.ratios l hl]; exact hb)
  have hab : (a, b) ∈ S.segPairs m n := (S.mem_segPairs m n _).mpr ⟨hns1 ▸ ha, hns2 ▸ hb⟩
  have hsame : SameResponse (S.seg m a, S.seg n b) (S.seg m u.1, S.seg n u.2) := by
    rcases hc with rfl | hc
    · exact ⟨rfl, rfl, rfl, .inl rfl⟩
    · exact hE.seg m hm n hn (a, b) hab u hu hc
  have hf := fls_sameResponse t alpha d hsame (hE.len m hm a (hns1 ▸ ha)).ne' true true
  simp only at hf
  refine ⟨?_, ?_, ?_⟩
  · simp only [geometry, s1, s2, s3, s4]
    rw [← hf]
  · simp only [geometry]
    rw [s1]; exact hsame.1.symm
  · simp only [geometry]
    rw [s3]; exact hsame.2.1.symm

theorem selfSimilar_exact (hE : S.Same) (t alpha : ℝ) {k a b : ℕ} {G : FLS.Pair} (hk : k < S.N) (ha : a < S.ns k) (hb : b < S.ns k) (h : S.SelfSimilar k a b G) :
    FLS.fls t alpha G true true = FLS.fls t alpha (S.geometry (k, k) (S.bore k).rb (a, b)) true true := by
  obtain ⟨i, u, hi, hsim, hu, hc, rfl⟩ := h
  have hdims : S.SameDims k i := by
    rcases hsim with rfl | h
    · exact ⟨rfl, rfl, rfl⟩
    · exact hE.self k hk i hi h
  have hns : S.ns k = S.ns i := by rw [← hE.ratios k hk, ← hE.ratios i hi, hdims.2.2]
  obtain ⟨s1, s2⟩ := S.seg_congr hdims (by rw [hE.tilt k hk, hE.tilt i hi]) (a := a) (by rw [hE.ratios k hk]; exact ha)
  obtain ⟨s3, s4⟩ := S.seg_congr hdims (by rw [hE.tilt k hk, hE.tilt i hi]) (a := b) (by rw [hE.ratios k hk]; exact hb)
  have hab : (a, b) ∈ S.segPairs i i := (S.mem_segPairs i i _).mpr ⟨hns ▸ ha, hns ▸ hb⟩
  have hsame : SameResponse (S.seg i a, S.seg i b) (S.seg i u.1, S.seg i u.2) := by
    rcases hc with rfl | hc
    · exact ⟨rfl, rfl, rfl, .inl rfl⟩
    · exact hE.seg i hi i hi (a, b) hab u hu hc
  have hf := fls_sameResponse t alpha (S.bore i).rb hsame (hE.len i hi a (hns ▸ ha)).ne' true true
  simp only at hf
  simp only [geometry, s1, s2, s3, s4]
  rw [← hf, hE.rad k hk, hE.rad i hi]

theorem distance_comm (hE : S.Same) {k l : ℕ} (hk : k < S.N) (hl : l < S.N) : (S.bore l).distance (S.bore k) = (S.bore k).distance (S.bore l) := by
  unfold Borehole.distance
  rw [hE.rad k hk, hE.rad l hl]
  congr 2
  ring

/-- **C27** (distances).  When the similarities found are exact apart from the distances, every response factor is the finite line source solution from the segment of its column to
the segment of its row, at a distance within the tolerance; for segments of the same borehole it is the radius. -/
theorem similarities_near (t alpha : ℝ) (hS : S.Valid) (hE : S.Same) {dist : List (ℕ × ℕ) → List ℝ × (ℕ → ℕ)} (hdist : S.DistOk dist) :
    ∃ M, S.factors (fun g => FLS.fls t alpha g true true) dist = some M ∧
      ∀ k < S.N, ∀ l < S.N, ∀ a < S.ns k, ∀ b < S.ns l, ∃ d, M (b + S.first l) (a + S.first k) = FLS.fls t alpha ⟨d, (S.seg k a).H, (S.seg k a).D, (S.seg l b).H, (S.seg l b).D⟩ true true ∧
        (k = l → d = (S.bore k).rb) ∧ (k ≠ l → |d - (S.bore k).distance (S.bore l)| ≤ S.disTol * (S.bore k).distance (S.bore l) ∧ S.Merged ((S.bore k).distance (S.bore l)) d) := by
  obtain ⟨M, hM, h1, h2⟩ := S.factors_entries (fun g => FLS.fls t alpha g true true) hS hdist
  refine ⟨M, hM, fun k hk l hl a ha b hb => ?_⟩
  by_cases hkl : k = l
  · subst hkl
    obtain ⟨G, hG, e⟩ := h1 k hk a ha b hb
    rw [e]
    exact ⟨_, S.selfSimilar_exact hE t alpha hk ha hb hG, fun _ => rfl, fun h => absurd rfl h⟩
  · obtain ⟨g, hg, G, h⟩ := h2 k hk l hl hkl a ha b hb
    have hN : 1 < S.N := by omega
    obtain ⟨⟨m, n⟩, tl, hgt, -⟩ := S.pairV_headed g hg
    have hhd : g.headD (0, 0) = (m, n) := by rw [hgt]; rfl
    obtain ⟨hm, hn, hmn⟩ := S.mem_pairV_bounds hN hg (p := (m, n)) (by rw [hgt]; exact List.mem_cons_self)
    rw [hhd] at h
    rcases h with ⟨-, hsim, e⟩ | ⟨-, hsim, e⟩
    · obtain ⟨d, c1, c2, c3, -, -⟩ := S.pairSimilar_same hE t alpha hk hl hkl hmn ha hb hsim
      rw [e]
      exact ⟨d, c3, fun h => absurd h hkl, fun _ => ⟨c1, c2⟩⟩
    · obtain ⟨d, c1, c2, e1, e2, e3⟩ := S.pairSimilar_same hE t alpha hl hk (Ne.symm hkl) hmn hb ha hsim
      rw [S.distance_comm hE hk hl] at c1 c2
      refine ⟨d, ?_, fun h => absurd h hkl, fun _ => ⟨c1, c2⟩⟩
      have hH1 := hE.len k hk a ha
      have hH2 := hE.len l hl b hb
      have hr := FLS.reciprocity t alpha (S.geometry (l, k) d (b, a)) hH2.ne' hH1.ne' true true
      have hsw : (S.geometry (l, k) d (b, a)).swap = S.geometry (k, l) d (a, b) := rfl
      rw [hsw, ← e1] at hr
      change (S.seg k a).H * FLS.fls t alpha G true true = (S.seg l b).H * FLS.fls t alpha (S.geometry (k, l) d (a, b)) true true at hr
      rw [e]
      change _ = FLS.fls t alpha (S.geometry (k, l) d (a, b)) true true
      split_ifs with hp
      · have hdims : G.H1 = G.H2 := by
          obtain ⟨u, d, hm', hn', -, hu, -, -, -, rfl⟩ := hsim
          obtain ⟨hu1, hu2⟩ := (S.mem_segPairs _ _ _).mp hu
          exact hE.rev m hm n hn hmn hp _ hu1 _ hu2
        rw [e2, e3] at hdims
        rw [hdims] at hr
        exact mul_left_cancel₀ hH1.ne' hr
      · rw [e2, e3, div_eq_iff hH2.ne']
        linarith

theorem pairOf_seg (hE : S.Same) {k l a b : ℕ} (hk : k < S.N) (hl : l < S.N) (ha : a < S.ns k) (hb : b < S.ns l) :
    FLS.pairOf (S.seg k a) (S.seg l b) = S.geometry (k, l) ((S.bore k).distance (S.bore l)) (a, b) := by
  unfold FLS.pairOf geometry
  rw [S.seg_distance (hE.tilt k hk) (hE.tilt l hl) (by rw [hE.ratios k hk]; exact ha) (by rw [hE.ratios l hl]; exact hb)]

theorem distance_self {k : ℕ} (h : 0 < (S.bore k).rb) : (S.bore k).distance (S.bore k) = (S.bore k).rb := by
  unfold Borehole.distance
  simp [h.le]

/-- **C27** (exact similarities).  When the similarities found are exact, every response factor is the finite line source solution from the segment of its column to the segment of
its row. -/
theorem similarities_exact (t alpha : ℝ) (hS : S.Valid) (hE : S.Exact) {dist : List (ℕ × ℕ) → List ℝ × (ℕ → ℕ)} (hdist : S.DistOk dist) :
    ∃ M, S.factors (fun g => FLS.fls t alpha g true true) dist = some M ∧
      ∀ k < S.N, ∀ l < S.N, ∀ a < S.ns k, ∀ b < S.ns l, M (b + S.first l) (a + S.first k) = FLS.fls t alpha (FLS.pairOf (S.seg k a) (S.seg l b)) true true := by
  obtain ⟨M, hM, h⟩ := S.similarities_near t alpha hS hE.toSame hdist
  refine ⟨M, hM, fun k hk l hl a ha b hb => ?_⟩
  obtain ⟨d, e, h1, h2⟩ := h k hk l hl a ha b hb
  have hd : d = (S.bore k).distance (S.bore l) := by
    by_cases hkl : k = l
    · subst hkl
      rw [h1 rfl, S.distance_self (hS.rad k hk)]
    · exact S.merged_exact hE hk hl (h2 hkl).2
  rw [e, hd, S.pairOf_seg hE.toSame hk hl ha hb]
  rfl

/-- **C27** (error).  When the similarities found are exact apart from the distances, every response factor differs from the finite line source solution from the segment of its
column to the segment of its row by at most `-log (1 - disTol)`, at all positive times; for segments of the same borehole it is exact. -/
theorem similarities_error {t alpha : ℝ} (hα : 0 < alpha) (ht : 0 < t) (hS : S.Valid) (hE : S.Same) (hD : ∀ k < S.N, ∀ a < S.ns k, 0 ≤ (S.seg k a).D) (htol : S.disTol < 1)
    {dist : List (ℕ × ℕ) → List ℝ × (ℕ → ℕ)} (hdist : S.DistOk dist) :
    ∃ M, S.factors (fun g => FLS.fls t alpha g true true) dist = some M ∧
      ∀ k < S.N, ∀ l < S.N, ∀ a < S.ns k, ∀ b < S.ns l,
        |M (b + S.first l) (a + S.first k) - FLS.fls t alpha (FLS.pairOf (S.seg k a) (S.seg l b)) true true| ≤ Real.log (1 / (1 - S.disTol)) ∧
          (k = l → M (b + S.first l) (a + S.first k) = FLS.fls t alpha (FLS.pairOf (S.seg k a) (S.seg l b)) true true) := by
  obtain ⟨M, hM, h⟩ := S.similarities_near t alpha hS hE hdist
  refine ⟨M, hM, fun k hk l hl a ha b hb => ?_⟩
  obtain ⟨d, e, h1, h2⟩ := h k hk l hl a ha b hb
  have hself : k = l → M (b + S.first l) (a + S.first k) = FLS.fls t alpha (FLS.pairOf (S.seg k a) (S.seg l b)) true true := by
    intro hkl
    rw [e, h1 hkl, S.pairOf_seg hE hk hl ha hb]
    subst hkl
    rw [S.distance_self (hS.rad k hk)]
    rfl
  have hlog : 0 ≤ Real.log (1 / (1 - S.disTol)) := Real.log_nonneg (by
    rw [le_div_iff₀ (by linarith)]
    linarith [hS.dis])
  refine ⟨?_, hself⟩
  by_cases hkl : k = l
  · rw [hself hkl, sub_self, abs_zero]
    exact hlog
  · have hx : 0 < (S.bore k).distance (S.bore l) := lt_of_lt_of_le (hS.rad k hk) (le_max_left _ _)
    have hg : (S.geometry (k, l) 1 (a, b)).Ok := ⟨one_pos, (hE.len k hk a ha).le, hE.len l hl b hb⟩
    have hc := FLS.close_log hα hg (hE.len k hk a ha) true (fun _ => ⟨hD k hk a ha, hD l hl b hb⟩) ht hx hS.dis.le htol (e := d) (by rw [abs_sub_comm]; exact (h2 hkl).1)
    rw [e, S.pairOf_seg hE hk hl ha hb, abs_sub_comm]
    exact hc

end Sim

end Verif.Sol
