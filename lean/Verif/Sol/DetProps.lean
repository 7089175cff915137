import Verif.Sol.DetLemmas
import Verif.FLS.Props
import Verif.Bore.SegmentsProps

/-!
# Properties of the discretization and of the `Detailed` solver (C24, C31)
-/

noncomputable section

namespace Verif.Sol

open Bore

/-! ### Specification -/

/-- `s` is the segment `a` of the borehole `k`. -/
def IsSegment (bs : List Borehole) (rs : List (List ℝ)) (k a : ℕ) (s : Borehole) : Prop := ∃ b r, bs[k]? = some b ∧ rs[k]? = some r ∧ (b.segments r)[a]? = some s

/-- The number of the segment `a` of the borehole `k`: after those of the boreholes before. -/
def position (rs : List (List ℝ)) (k a : ℕ) : ℕ := ((rs.take k).map List.length).sum + a

theorem position_eq {bs : List Borehole} {ns : List ℕ} {rs : List (List ℝ)} (h : Consistent bs ns rs) (k a : ℕ) : position rs k a = i0 ns k + a := by
  unfold position i0
  rw [← h.ratios, List.map_take]

theorem IsSegment.spec {bs : List Borehole} {ns : List ℕ} {rs : List (List ℝ)} (h : Consistent bs ns rs) {k a : ℕ} {s : Borehole} (hs : IsSegment bs rs k a s) :
    (segmentList bs ns rs)[i0 ns k + a]? = some s ∧ i0 ns k ≤ i0 ns k + a ∧ i0 ns k + a < i1 ns k ∧ k < bs.length ∧ i1 ns k ≤ ns.sum := by
  obtain ⟨b, r, hb, hr, hs⟩ := hs
  have hn : ns[k]? = some r.length := by rw [← h.ratios, List.getElem?_map, hr]; rfl
  have ha : a < r.length := by
    have := (List.getElem?_eq_some_iff.mp hs).1
    rwa [segments_length] at this
  refine ⟨by rw [segmentList_get h hb hr hn ha, hs], by omega, by rw [i1_eq, i0_step ns k _ hn]; omega, (List.getElem?_eq_some_iff.mp hb).1, i0_le_sum ns _⟩

theorem segmentList_drop {bs : List Borehole} {ns : List ℕ} {rs : List (List ℝ)} (h : Consistent bs ns rs) (k : ℕ) :
    (segmentList bs ns rs).drop (i0 ns k) = segmentList (bs.drop k) (ns.drop k) (rs.drop k) ∧ Consistent (bs.drop k) (ns.drop k) (rs.drop k) := by
  induction k generalizing bs ns rs with
  | zero => exact ⟨by simp [i0], by simpa using h⟩
  | succ k ih =>
    cases bs with
    | nil =>
      have : ns = [] := by have := h.segs; simpa using this
      subst this
      have : rs = [] := by have := h.ratios; simpa using this
      subst this
      exact ⟨by simp [segmentList], by simpa using h⟩
    | cons b bs =>
      cases ns with
      | nil => have := h.segs; simp at this
      | cons n ns =>
        cases rs with
        | nil => have := h.ratios; simp at this
        | cons r rs =>
          have h1 := h.segs
          have h2 := h.ratios
          simp at h1 h2
          have e : segmentList (b :: bs) (n :: ns) (r :: rs) = b.segments r ++ segmentList bs ns rs := by simp [segmentList]
          rw [e, i0_succ, ← List.drop_drop, List.drop_left' (by rw [segments_length, h2.1])]
          exact ih ⟨h1, h2.2⟩

theorem segment_tilt (b : Borehole) (r : List ℝ) : ∀ s ∈ b.segments r, s.tilt = b.tilt := by
  intro s hs
  unfold Borehole.segments at hs
  obtain ⟨i, hi⟩ := List.mem_iff_getElem?.mp hs
  rw [List.getElem?_zipWith_eq_some] at hi
  obtain ⟨z, ρ, -, -, rfl⟩ := hi
  rfl

theorem all_vertical {bs : List Borehole} {ns : List ℕ} {rs : List (List ℝ)} (h : Consistent bs ns rs) (hpos : ∀ r ∈ rs, r ≠ []) : (segmentList bs ns rs).all vertical = bs.all vertical := by
  induction bs generalizing ns rs with
  | nil => simp [segmentList]
  | cons b bs ih =>
    cases ns with
    | nil => have := h.segs; simp at this
    | cons n ns =>
      cases rs with
      | nil => have := h.ratios; simp at this
      | cons r rs =>
        have h1 := h.segs
        have h2 := h.ratios
        simp at h1 h2
        have e : segmentList (b :: bs) (n :: ns) (r :: rs) = b.segments r ++ segmentList bs ns rs := by simp [segmentList]
        rw [e, List.all_append, List.all_cons, ih ⟨h1, h2.2⟩ fun r' hr => hpos r' (List.mem_cons_of_mem _ hr)]
        congr 1
        have hv : ∀ s ∈ b.segments r, vertical s = vertical b := fun s hs => by unfold vertical; rw [segment_tilt b r s hs]
        have hne : b.segments r ≠ [] := fun hz => hpos r List.mem_cons_self (List.length_eq_zero_iff.mp (by rw [← segments_length b, hz]; rfl))
        obtain ⟨s, hs⟩ := List.exists_mem_of_ne_nil _ hne
        cases hb : vertical b with
        | true => rw [List.all_eq_true]; intro x hx; rw [hv x hx, hb]
        | false => rw [List.all_eq_false]; exact ⟨s, hs, by rw [hv s hs, hb]; simp⟩

theorem mem_blockWrites {K : Bool → Borehole → Borehole → ℝ} {nB : ℕ} {ns : List ℕ} {segs : List Borehole} {i : ℕ} (w : Write) :
    w ∈ blockWrites K nB ns segs i ↔ i + 1 < nB ∧ ∃ p q s r, i0 ns i ≤ p ∧ p < i1 ns i ∧ i1 ns i ≤ q ∧ segs[q]? = some s ∧ segs[p]? = some r ∧
      (w = ⟨p, q, K ((segs.drop (i0 ns i)).all vertical) s r⟩ ∨ w = ⟨q, p, K ((segs.drop (i0 ns i)).all vertical) s r * (r.H / s.H)⟩) := by
  have hmono : i0 ns i ≤ i1 ns i := i0_mono ns (Nat.le_succ i)
  have hflag : ((segs.drop (i1 ns i)).all vertical && ((segs.drop (i0 ns i)).take (i1 ns i - i0 ns i)).all vertical) = (segs.drop (i0 ns i)).all vertical := by
    conv_rhs => rw [← List.take_append_drop (i1 ns i - i0 ns i) (segs.drop (i0 ns i)), List.all_append, List.drop_drop,
      show i0 ns i + (i1 ns i - i0 ns i) = i1 ns i by omega, Bool.and_comm]
  have hb2 : ∀ p r, ((segs.drop (i0 ns i)).take (i1 ns i - i0 ns i))[p]? = some r ↔ i0 ns i + p < i1 ns i ∧ segs[i0 ns i + p]? = some r := by
    intro p r
    rw [List.getElem?_take]
    split_ifs with hp
    · rw [List.getElem?_drop]
      exact ⟨fun h => ⟨by omega, h⟩, fun h => h.2⟩
    · exact ⟨fun h => by simp at h, fun h => by omega⟩
  unfold blockWrites
  split_ifs with hi
  · dsimp only
    rw [hflag, List.mem_append, List.mem_flatMap, List.mem_flatMap]
    constructor
    · rintro (⟨⟨r, p⟩, hr, hw⟩ | ⟨⟨s, q⟩, hs, hw⟩)
      · obtain ⟨⟨s, q⟩, hs, rfl⟩ := List.mem_map.mp hw
        rw [List.mk_mem_zipIdx_iff_getElem?] at hr hs
        rw [List.getElem?_drop] at hs
        obtain ⟨h1, h2⟩ := (hb2 p r).mp hr
        exact ⟨hi, i0 ns i + p, i1 ns i + q, s, r, by omega, h1, by omega, hs, h2, .inl rfl⟩
      · obtain ⟨⟨r, p⟩, hr, rfl⟩ := List.mem_map.mp hw
        rw [List.mk_mem_zipIdx_iff_getElem?] at hr hs
        rw [List.getElem?_drop] at hs
        obtain ⟨h1, h2⟩ := (hb2 p r).mp hr
        exact ⟨hi, i0 ns i + p, i1 ns i + q, s, r, by omega, h1, by omega, hs, h2, .inr rfl⟩
    · rintro ⟨-, p, q, s, r, h1, h2, h3, hs, hr, hw⟩
      have hr' : (r, p - i0 ns i) ∈ ((segs.drop (i0 ns i)).take (i1 ns i - i0 ns i)).zipIdx := by
        rw [List.mk_mem_zipIdx_iff_getElem?, hb2, show i0 ns i + (p - i0 ns i) = p by omega]; exact ⟨h2, hr⟩
      have hs' : (s, q - i1 ns i) ∈ (segs.drop (i1 ns i)).zipIdx := by
        rw [List.mk_mem_zipIdx_iff_getElem?, List.getElem?_drop, show i1 ns i + (q - i1 ns i) = q by omega]; exact hs
      rcases hw with rfl | rfl
      · refine .inl ⟨_, hr', List.mem_map.mpr ⟨_, hs', ?_⟩⟩
        simp only [Write.mk.injEq, and_true]; omega
      · refine .inr ⟨_, hs', List.mem_map.mpr ⟨_, hr', ?_⟩⟩
        simp only [Write.mk.injEq, and_true]; omega
  · simp [hi]

/-- **C24**.  For a consistent discretization the solver returns; the entry of the receiver `a` of the borehole `k` and the source `b` of the borehole `l` is the value for
these segments, evaluated directly for `k ≤ l` and from the opposite pair and the ratio of the lengths otherwise.  The solution for vertical boreholes is used when all
boreholes are vertical (same borehole), or all those from the first of the two on. -/
theorem detailed_entries (K : Bool → Borehole → Borehole → ℝ) {bs : List Borehole} {ns : List ℕ} {rs : List (List ℝ)} (h : Consistent bs ns rs) (hpos : ∀ r ∈ rs, r ≠ []) :
    ∃ M, detailed K bs ns rs = some M ∧ ∀ k a sk l b sl, IsSegment bs rs k a sk → IsSegment bs rs l b sl →
      M (position rs k a) (position rs l b) =
        if k = l then K (bs.all vertical) sl sk
        else if k < l then K ((bs.drop k).all vertical) sl sk
        else K ((bs.drop l).all vertical) sk sl * (sl.H / sk.H) := by
  obtain ⟨segs, hsegs⟩ : ∃ segs, segs = segmentList bs ns rs := ⟨_, rfl⟩
  have hlen : segs.length = ns.sum := by rw [hsegs, segmentList_length h]
  have hflag : ∀ k, (segs.drop (i0 ns k)).all vertical = (bs.drop k).all vertical := fun k => by
    obtain ⟨e, hc⟩ := segmentList_drop h k
    rw [hsegs, e, all_vertical hc fun r hr => hpos r (List.mem_of_mem_drop hr)]
  obtain ⟨ws, hws⟩ : ∃ ws, selfWrites K bs ns segs = some ws := by
    unfold selfWrites
    refine mapM_isSome fun x hx => ?_
    obtain ⟨k, hk, h1, h2⟩ := (mem_selfIndices h.segs x.1 x.2).mp hx
    have hle : i1 ns k ≤ ns.sum := i0_le_sum ns _
    rw [List.getElem?_eq_getElem (show x.1 < segs.length by omega), List.getElem?_eq_getElem (show x.2 < segs.length by omega)]
    exact ⟨_, rfl⟩
  have hself : ∀ w, w ∈ ws ↔ ∃ k < bs.length, ∃ i j a b, (i0 ns k ≤ i ∧ i < i1 ns k) ∧ (i0 ns k ≤ j ∧ j < i1 ns k) ∧ segs[i]? = some a ∧ segs[j]? = some b ∧
      w = ⟨j, i, K (bs.all vertical) a b⟩ := fun w => by
    have hws' := hws
    unfold selfWrites at hws'
    rw [mem_of_mapM hws' w]
    constructor
    · rintro ⟨x, hx, hw⟩
      obtain ⟨k, hk, h1, h2⟩ := (mem_selfIndices h.segs x.1 x.2).mp hx
      split at hw
      · rename_i a b ha hb
        exact ⟨k, hk, x.1, x.2, a, b, h1, h2, ha, hb, (Option.some.inj hw).symm⟩
      · simp at hw
    · rintro ⟨k, hk, i, j, a, b, h1, h2, ha, hb, rfl⟩
      refine ⟨(i, j), (mem_selfIndices h.segs i j).mpr ⟨k, hk, h1, h2⟩, ?_⟩
      dsimp only
      rw [ha, hb]
  refine ⟨_, by unfold detailed; dsimp only; rw [← hsegs, hws], ?_⟩
  intro k a sk l b sl hsk hsl
  obtain ⟨g1, g2, g3, g4, g5⟩ := hsk.spec h
  obtain ⟨f1, f2, f3, f4, f5⟩ := hsl.spec h
  rw [position_eq h, position_eq h]
  rw [← hsegs] at g1 f1
  obtain ⟨r, hr⟩ : ∃ r, r = i0 ns k + a := ⟨_, rfl⟩
  obtain ⟨c, hc⟩ : ∃ c, c = i0 ns l + b := ⟨_, rfl⟩
  rw [← hr] at g1 g2 g3 ⊢
  rw [← hc] at f1 f2 f3 ⊢
  refine fill_spec _ _ r c _ ?_ ?_
  · intro w hw hwr hwc
    rcases List.mem_append.mp hw with hw | hw
    · obtain ⟨m, hm, i, j, x, y, h1, h2, hx, hy, rfl⟩ := (hself w).mp hw
      dsimp only at hwr hwc ⊢
      subst hwr hwc
      have e1 := block_unique ns g2 g3 h2.1 h2.2
      have e2 := block_unique ns f2 f3 h1.1 h1.2
      rw [if_pos (e1.trans e2.symm)]
      rw [g1] at hy
      rw [f1] at hx
      rw [Option.some.inj hx, Option.some.inj hy]
    · obtain ⟨i, hi, hw⟩ := List.mem_flatMap.mp hw
      obtain ⟨-, p, q, s, t, h1, h2, h3, hs, ht, hw⟩ := (mem_blockWrites w).mp hw
      rw [hflag i] at hw
      rcases hw with rfl | rfl
      · dsimp only at hwr hwc ⊢
        subst hwr hwc
        have e1 := block_unique ns g2 g3 h1 h2
        subst e1
        have hkl : k < l := by
          by_contra hn
          have : i0 ns (l + 1) ≤ i0 ns (k + 1) := i0_mono ns (by omega)
          rw [i1_eq] at f3 h3; omega
        rw [if_neg (by omega), if_pos hkl]
        rw [g1] at ht
        rw [f1] at hs
        rw [Option.some.inj hs, Option.some.inj ht]
      · dsimp only at hwr hwc ⊢
        subst hwr hwc
        have e1 := block_unique ns f2 f3 h1 h2
        subst e1
        have hkl : l < k := by
          by_contra hn
          have : i0 ns (k + 1) ≤ i0 ns (l + 1) := i0_mono ns (by omega)
          rw [i1_eq] at g3 h3; omega
        rw [if_neg (by omega), if_neg (by omega)]
        rw [f1] at ht
        rw [g1] at hs
        rw [Option.some.inj hs, Option.some.inj ht]
  · left
    rcases Nat.lt_trichotomy k l with hkl | hkl | hkl
    · have hle : i1 ns k ≤ i0 ns l := i0_mono ns hkl
      exact ⟨_, List.mem_append_right _ (List.mem_flatMap.mpr ⟨k, List.mem_range.mpr g4, (mem_blockWrites _).mpr ⟨by omega, r, c, sl, sk, g2, g3, by omega, f1, g1, .inl rfl⟩⟩), rfl, rfl⟩
    · subst hkl
      exact ⟨_, List.mem_append_left _ ((hself _).mpr ⟨k, g4, c, r, sl, sk, ⟨f2, f3⟩, ⟨g2, g3⟩, f1, g1, rfl⟩), rfl, rfl⟩
    · have hle : i1 ns l ≤ i0 ns k := i0_mono ns hkl
      exact ⟨_, List.mem_append_right _ (List.mem_flatMap.mpr ⟨l, List.mem_range.mpr f4, (mem_blockWrites _).mpr ⟨by omega, c, r, sk, sl, f2, f3, by omega, g1, f1, .inr rfl⟩⟩), rfl, rfl⟩

theorem segment_rb (b : Borehole) (r : List ℝ) : ∀ s ∈ b.segments r, s.rb = b.rb := by
  intro s hs
  unfold Borehole.segments at hs
  obtain ⟨i, hi⟩ := List.mem_iff_getElem?.mp hs
  rw [List.getElem?_zipWith_eq_some] at hi
  obtain ⟨z, ρ, -, -, rfl⟩ := hi
  rfl

/-- **C24** (vertical fields).  In a field of vertical boreholes of the same radius, every entry is the finite line source solution from the segment of its column to the
segment of its row, and the array satisfies the reciprocity relation. -/
theorem detailed_vertical (t alpha : ℝ) {K : Bool → Borehole → Borehole → ℝ} (hK : ∀ s r, K true s r = FLS.fls t alpha (FLS.pairOf s r) true true) {bs : List Borehole} {ns : List ℕ}
    {rs : List (List ℝ)} (h : Consistent bs ns rs) (hpos : ∀ r ∈ rs, r ≠ []) (hv : ∀ b ∈ bs, ¬ tilted b.tilt) {rb : ℝ} (hrb : ∀ b ∈ bs, b.rb = rb)
    (hH : ∀ k a s, IsSegment bs rs k a s → s.H ≠ 0) :
    ∃ M, detailed K bs ns rs = some M ∧ ∀ k a sk l b sl, IsSegment bs rs k a sk → IsSegment bs rs l b sl →
      M (position rs k a) (position rs l b) = FLS.fls t alpha (FLS.pairOf sl sk) true true ∧
      sk.H * M (position rs k a) (position rs l b) = sl.H * M (position rs l b) (position rs k a) := by
  obtain ⟨M, hM, he⟩ := detailed_entries K h hpos
  have hall : ∀ k, (bs.drop k).all vertical = true := fun k => by
    rw [List.all_eq_true]
    intro b hb
    simp [vertical, hv b (List.mem_of_mem_drop hb)]
  have hrad : ∀ k a s, IsSegment bs rs k a s → s.rb = rb := by
    rintro k a s ⟨b, r, hb, hr, hs⟩
    rw [segment_rb b r s (List.mem_of_getElem? hs)]
    exact hrb b (List.mem_of_getElem? hb)
  have key : ∀ k a sk l b sl, IsSegment bs rs k a sk → IsSegment bs rs l b sl → M (position rs k a) (position rs l b) = FLS.fls t alpha (FLS.pairOf sl sk) true true := by
    intro k a sk l b sl hk hl
    have e := he k a sk l b sl hk hl
    have h0 := hall 0
    rw [List.drop_zero] at h0
    rw [e, h0, hall k, hall l, hK, hK]
    split_ifs with h1 h2
    · rfl
    · rfl
    · have := FLS.reciprocity_boreholes t alpha sk sl (by rw [hrad _ _ _ hk, hrad _ _ _ hl]) (hH _ _ _ hk) (hH _ _ _ hl) true true
      have hk0 := hH _ _ _ hk
      field_simp
      linarith
  refine ⟨M, hM, fun k a sk l b sl hk hl => ⟨key k a sk l b sl hk hl, ?_⟩⟩
  rw [key k a sk l b sl hk hl, key l b sl k a sk hl hk]
  exact FLS.reciprocity_boreholes t alpha sl sk (by rw [hrad _ _ _ hk, hrad _ _ _ hl]) (hH _ _ _ hl) (hH _ _ _ hk) true true

/-- **C24** (reciprocity between boreholes).  In any field the entries of segments of different boreholes satisfy the reciprocity relation. -/
theorem detailed_reciprocity (K : Bool → Borehole → Borehole → ℝ) {bs : List Borehole} {ns : List ℕ} {rs : List (List ℝ)} (h : Consistent bs ns rs) (hpos : ∀ r ∈ rs, r ≠ [])
    {M : ℕ → ℕ → ℝ} (hM : detailed K bs ns rs = some M) {k a l b : ℕ} {sk sl : Borehole} (hk : IsSegment bs rs k a sk) (hl : IsSegment bs rs l b sl) (hkl : k ≠ l)
    (h1 : sk.H ≠ 0) (h2 : sl.H ≠ 0) : sk.H * M (position rs k a) (position rs l b) = sl.H * M (position rs l b) (position rs k a) := by
  obtain ⟨M', hM', he⟩ := detailed_entries K h hpos
  rw [hM] at hM'
  rw [Option.some.inj hM', he k a sk l b sl hk hl, he l b sl k a sk hl hk, if_neg hkl, if_neg (Ne.symm hkl)]
  rcases Nat.lt_or_gt_of_ne hkl with hlt | hlt
  · rw [if_pos hlt, if_neg (by omega)]; field_simp
  · rw [if_neg (by omega), if_pos hlt]; field_simp

/-- All rows and columns of the array belong to segments. -/
theorem positions_cover {bs : List Borehole} {ns : List ℕ} {rs : List (List ℝ)} (h : Consistent bs ns rs) {p : ℕ} (hp : p < (segmentList bs ns rs).length) :
    ∃ k a s, p = position rs k a ∧ IsSegment bs rs k a s ∧ (segmentList bs ns rs)[p]? = some s := by
  rw [segmentList_length h] at hp
  obtain ⟨k, n, a, h1, h2, h3⟩ := block_exists ns hp
  obtain ⟨b, r, hb, hr, hl⟩ := h.get h1
  have ha : a < (b.segments r).length := by rw [segments_length, hl]; exact h2
  refine ⟨k, a, (b.segments r)[a], by rw [position_eq h, h3], ⟨b, r, hb, hr, List.getElem?_eq_getElem ha⟩, ?_⟩
  rw [h3, segmentList_get h hb hr h1 h2, List.getElem?_eq_getElem ha]

/-! ### Discretization -/

theorem segments_sum (b : Borehole) (r : List ℝ) : ((b.segments r).map Borehole.H).sum = b.H * r.sum := by
  have hc : ∀ (a : ℝ), ((segsFrom b a r).map Borehole.H).sum = b.H * r.sum := by
    intro a
    rw [segsFrom_map_H]
    induction r with
    | nil => simp
    | cons v r ih => simp only [List.map_cons, List.sum_cons, ih]; ring
  rw [segments_eq]
  exact hc 0

/-- **C31**, for lists of one entry per borehole.  An accepted discretization has one vector of ratios of the given length per borehole, and the segments have the
length of the field up to the tolerance on the ratios. -/
theorem setup_consistent_partial {bs : List Borehole} {nSegments : NSeg} {ratios : Ratios} {ns : List ℤ} {rs : List (List ℝ)} (h : setup bs.length nSegments ratios = some (ns, rs))
    (h1 : ns.length = bs.length) (h2 : rs.length = bs.length) (hH : ∀ b ∈ bs, 0 ≤ b.H) :
    Consistent bs (ns.map Int.toNat) rs ∧ (∀ r ∈ rs, r ≠ []) ∧ (∀ n ∈ ns, 1 ≤ n) ∧
    |((segmentList bs (ns.map Int.toNat) rs).map Borehole.H).sum - (bs.map Borehole.H).sum| ≤ 1 / 10 ^ 6 * (bs.map Borehole.H).sum := by
  unfold setup at h
  split at h
  · simp at h
  · rename_i ns' hns
    split at h
    · simp at h
    · rename_i rs' hrs
      split_ifs at h with c1 c2 c3 c4
      obtain ⟨rfl, rfl⟩ := Prod.mk.inj (Option.some.inj h)
      clear h hns hrs c1 c2
      have key : ∀ (bs : List Borehole) (ns : List ℤ) (rs : List (List ℝ)), ns.length = bs.length → rs.length = bs.length → (∀ b ∈ bs, 0 ≤ b.H) → (∀ n ∈ ns, 1 ≤ n) →
          (∀ p ∈ List.zip rs ns, ratioOk p.1 p.2) → rs.map List.length = ns.map Int.toNat ∧ (∀ r ∈ rs, r ≠ []) ∧
          |((segmentList bs (ns.map Int.toNat) rs).map Borehole.H).sum - (bs.map Borehole.H).sum| ≤ 1 / 10 ^ 6 * (bs.map Borehole.H).sum := by
        intro bs
        induction bs with
        | nil =>
          intro ns rs h1 h2 _ _ _
          have e1 : ns = [] := by simpa using h1
          have e2 : rs = [] := by simpa using h2
          subst e1 e2
          simp [segmentList]
        | cons b bs ih =>
          intro ns rs h1 h2 hH h3 h4
          cases ns with
          | nil => simp at h1
          | cons n ns =>
            cases rs with
            | nil => simp at h2
            | cons r rs =>
              obtain ⟨i1, i2, i3⟩ := ih ns rs (by simpa using h1) (by simpa using h2) (fun x hx => hH x (List.mem_cons_of_mem _ hx)) (fun x hx => h3 x (List.mem_cons_of_mem _ hx))
                (fun p hp => h4 p (by rw [List.zip_cons_cons]; exact List.mem_cons_of_mem _ hp))
              obtain ⟨r1, r2⟩ := h4 (r, n) (by rw [List.zip_cons_cons]; exact List.mem_cons_self)
              dsimp only at r1 r2
              have hn := h3 n List.mem_cons_self
              refine ⟨?_, ?_, ?_⟩
              · rw [List.map_cons, List.map_cons, i1]
                congr 1; omega
              · intro x hx
                rcases List.mem_cons.mp hx with rfl | hx
                · rintro rfl; simp at r1; omega
                · exact i2 x hx
              · have e : segmentList (b :: bs) ((n :: ns).map Int.toNat) (r :: rs) = b.segments r ++ segmentList bs (ns.map Int.toNat) rs := by simp [segmentList]
                have hb := hH b List.mem_cons_self
                rw [e, List.map_append, List.sum_append, segments_sum, List.map_cons, List.sum_cons]
                rw [abs_sub_comm] at r2
                have h5 := abs_lt.mp r2
                rw [abs_le] at i3 ⊢
                constructor <;> nlinarith
      obtain ⟨k1, k2, k3⟩ := key bs _ _ h1 h2 hH c3.2 c4
      exact ⟨⟨by simpa using h1, k1⟩, k2, c3.2, k3⟩

/-- An integer number of segments and ratios not given as a list always have one entry per borehole. -/
theorem setup_int_lengths {nB : ℕ} {n : ℤ} {ratios : Ratios} {ns : List ℤ} {rs : List (List ℝ)} (h : setup nB (.int n) ratios = some (ns, rs)) (hr : ∀ l, ratios ≠ .list l) :
    ns.length = nB ∧ rs.length = nB := by
  unfold setup at h
  split at h
  · simp at h
  · rename_i ns' hns
    split at h
    · simp at h
    · rename_i rs' hrs
      split_ifs at h
      obtain ⟨rfl, rfl⟩ := Prod.mk.inj (Option.some.inj h)
      have e : ns' = List.replicate nB n := by simpa [boreSegments] using hns.symm
      subst e
      refine ⟨by simp, ?_⟩
      cases ratios with
      | array r => have : rs' = List.replicate nB r := by simpa [formatRatios] using hrs.symm
                   rw [this]; simp
      | uniform => simpa using length_of_mapM hrs
      | callable f => simpa using length_of_mapM hrs
      | list l => exact absurd rfl (hr l)

/-- Specification of the numbers of segments that the argument gives. -/
def SegmentsGiven (nB : ℕ) (nSegments : NSeg) (ns : List ℤ) : Prop :=
  match nSegments with
  | .int n => ns.length = nB ∧ ∀ m ∈ ns, m = n
  | .list l => ns = l
  | .other => False

/-- Specification of the ratios that the argument gives. -/
def RatiosGiven (nB : ℕ) (ns : List ℤ) (ratios : Ratios) (rs : List (List ℝ)) : Prop :=
  match ratios with
  | .array r => rs.length = nB ∧ ∀ q ∈ rs, q = r
  | .uniform => List.Forall₂ (fun n r => 0 < n ∧ (r.length : ℤ) = n ∧ ∀ x ∈ r, x = 1 / (n : ℝ)) ns rs
  | .callable f => List.Forall₂ (fun n r => f n = some r) ns rs
  | .list l => rs = l

theorem mapM_iff {α β : Type*} {f : α → Option β} {l : List α} {m : List β} : l.mapM f = some m ↔ List.Forall₂ (fun a b => f a = some b) l m := by
  induction l generalizing m with
  | nil => cases m <;> simp
  | cons a l ih =>
    rw [List.mapM_cons]
    cases m with
    | nil => cases f a <;> cases l.mapM f <;> simp
    | cons b m =>
      rw [List.forall₂_cons, ← ih]
      cases f a <;> cases l.mapM f <;> simp

theorem fullRatios_iff (n : ℤ) (r : List ℝ) : fullRatios n = some r ↔ 0 < n ∧ (r.length : ℤ) = n ∧ ∀ x ∈ r, x = 1 / (n : ℝ) := by
  unfold fullRatios uniformRatios
  split_ifs with h
  · simp; intro h'; omega
  · have e : ((n.toNat : ℕ) : ℝ) = (n : ℝ) := by
      have : ((n.toNat : ℕ) : ℤ) = n := Int.toNat_of_nonneg (by omega)
      exact_mod_cast this
    rw [Option.some.injEq, e, eq_comm, List.eq_replicate_iff]
    constructor
    · rintro ⟨h1, h2⟩; exact ⟨by omega, by omega, h2⟩
    · rintro ⟨h1, h2, h3⟩; exact ⟨by omega, h3⟩

theorem segments_given (nB : ℕ) (nSegments : NSeg) (ns : List ℤ) : boreSegments nB nSegments = some ns ↔ SegmentsGiven nB nSegments ns := by
  cases nSegments with
  | int n => simp only [boreSegments, SegmentsGiven, Option.some.injEq]; rw [eq_comm, List.eq_replicate_iff]
  | list l => simp only [boreSegments, SegmentsGiven, Option.some.injEq]; exact eq_comm
  | other => simp [boreSegments, SegmentsGiven]

theorem ratios_given (nB : ℕ) (ns : List ℤ) (ratios : Ratios) (rs : List (List ℝ)) : formatRatios nB ns ratios = some rs ↔ RatiosGiven nB ns ratios rs := by
  cases ratios with
  | array r => simp only [formatRatios, RatiosGiven, Option.some.injEq]; rw [eq_comm, List.eq_replicate_iff]
  | uniform => simp only [formatRatios, RatiosGiven, mapM_iff, fullRatios_iff]
  | callable f => simp only [formatRatios, RatiosGiven, mapM_iff]
  | list l => simp only [formatRatios, RatiosGiven, Option.some.injEq]; exact eq_comm

/-- **C31** (exactly what is accepted).  The construction succeeds exactly for a field and a list of numbers of segments that are not empty, numbers that are all positive,
and ratios of which the first ones have one entry per segment and the sum one up to the tolerance; ratios beyond the list of numbers of segments are only compared with the
first ones, and only if all numbers are the same.  Nothing is said of the number of boreholes. -/
theorem setup_accepts (nB : ℕ) (nSegments : NSeg) (ratios : Ratios) (ns : List ℤ) (rs : List (List ℝ)) :
    setup nB nSegments ratios = some (ns, rs) ↔
    SegmentsGiven nB nSegments ns ∧ RatiosGiven nB ns ratios rs ∧ 0 < nB ∧ 0 < ns.length ∧ (∀ n ∈ ns, 1 ≤ n) ∧
    (∀ (i : ℕ) (n : ℤ) (r : List ℝ), ns[i]? = some n → rs[i]? = some r → (r.length : ℤ) = n ∧ |1 - r.sum| < 1 / 10 ^ 6) ∧
    ((∀ n ∈ ns, ∀ m ∈ ns, n = m) → ∀ (i : ℕ) (q r : List ℝ), ns.length ≤ i → rs[0]? = some q → rs[i]? = some r → r.length = q.length ∨ r.length = 1 ∨ q.length = 1) := by
  rw [← segments_given, ← ratios_given]
  have hz : (∀ p ∈ List.zip rs ns, ratioOk p.1 p.2) ↔ ∀ (i : ℕ) (n : ℤ) (r : List ℝ), ns[i]? = some n → rs[i]? = some r → (r.length : ℤ) = n ∧ |1 - r.sum| < 1 / 10 ^ 6 := by
    constructor
    · intro h i n r hn hr
      exact h (r, n) (List.mem_iff_getElem?.mpr ⟨i, by rw [List.getElem?_zip_eq_some]; exact ⟨hr, hn⟩⟩)
    · intro h p hp
      obtain ⟨i, hi⟩ := List.mem_iff_getElem?.mp hp
      rw [List.getElem?_zip_eq_some] at hi
      exact h i p.2 p.1 hi.2 hi.1
  have hall : ns ≠ [] → ((∀ n ∈ ns, n = ns.headD 0) ↔ ∀ n ∈ ns, ∀ m ∈ ns, n = m) := by
    intro hne
    constructor
    · intro h n hn m hm; rw [h n hn, h m hm]
    · intro h n hn
      refine h n hn _ ?_
      cases ns with
      | nil => exact absurd rfl hne
      | cons a l => simp
  have heq : ns ≠ [] → (∀ p ∈ List.zip rs ns, ratioOk p.1 p.2) → ((∀ n ∈ ns, ∀ m ∈ ns, n = m) → ∀ r ∈ rs, shapesOk r.length (rs.headD []).length) ↔
      ns ≠ [] → (∀ p ∈ List.zip rs ns, ratioOk p.1 p.2) →
      ((∀ n ∈ ns, ∀ m ∈ ns, n = m) → ∀ (i : ℕ) (q r : List ℝ), ns.length ≤ i → rs[0]? = some q → rs[i]? = some r → r.length = q.length ∨ r.length = 1 ∨ q.length = 1) := by
    refine forall_congr' fun hne => forall_congr' fun hok => forall_congr' fun hsame => ?_
    cases rs with
    | nil => simp
    | cons q rs =>
      constructor
      · intro h i q' r _ h0 hr
        cases h0
        exact h r (List.mem_iff_getElem?.mpr ⟨i, hr⟩)
      · intro h r hr
        obtain ⟨i, hi⟩ := List.mem_iff_getElem?.mp hr
        by_cases hin : ns.length ≤ i
        · exact h i q r hin rfl hi
        · left
          have hn0 : 0 < ns.length := List.length_pos_iff.mpr hne
          have a := (hz.mp hok) i ns[i] r (List.getElem?_eq_getElem (by omega)) hi
          have b := (hz.mp hok) 0 ns[0] q (List.getElem?_eq_getElem hn0) rfl
          have c := hsame ns[i] (List.getElem_mem _) ns[0] (List.getElem_mem _)
          have : (r.length : ℤ) = q.length := by rw [a.1, b.1, c]
          simpa using this
  unfold setup
  cases hb : boreSegments nB nSegments with
  | none => simp
  | some ns' =>
    dsimp only
    cases hf : formatRatios nB ns' ratios with
    | none =>
      simp only [reduceCtorEq, Option.some.injEq, false_iff, not_and]
      rintro rfl h
      rw [hf] at h; cases h
    | some rs' =>
      dsimp only
      constructor
      · intro h
        split_ifs at h with c1 c2 c3 c4
        obtain ⟨rfl, rfl⟩ := Prod.mk.inj (Option.some.inj h)
        exact ⟨rfl, hf, c2, List.length_pos_iff.mpr c1.1, c3.2, hz.mp c4, heq.mp (fun _ _ hs => c1.2 ((hall c1.1).mpr hs)) c1.1 c4⟩
      · rintro ⟨h1, h2, h3, h4, h5, h6, h7⟩
        cases h1
        rw [hf] at h2
        cases h2
        have hne := List.length_pos_iff.mp h4
        have hok := hz.mpr h6
        rw [if_neg (not_not.mpr ⟨hne, fun hs => heq.mpr (fun _ _ => h7) hne hok ((hall hne).mp hs)⟩), if_neg (not_not.mpr h3), if_neg (not_not.mpr ⟨rfl, h5⟩), if_neg (not_not.mpr hok)]

/-- Three boreholes, two numbers of segments: accepted, with a third vector of ratios that is never looked at beyond its shape. -/
example : setup 3 (.list [2, 2]) (.list [[1 / 2, 1 / 2], [1 / 4, 3 / 4], [7, 7]]) = some ([2, 2], [[1 / 2, 1 / 2], [1 / 4, 3 / 4], [7, 7]]) := by
  rw [setup_accepts]
  refine ⟨rfl, rfl, by norm_num, by norm_num, by simp, ?_, ?_⟩
  · intro i n r hn hr
    match i, hn, hr with
    | 0, hn, hr => cases hn; cases hr; norm_num
    | 1, hn, hr => cases hn; cases hr; norm_num
    | i + 2, hn, _ => simp at hn
  · intro _ i q r hi hq hr
    match i, hi, hr with
    | 2, _, hr => cases hq; cases hr; simp
    | i + 3, _, hr => simp at hr

/-- **C31** fails: for every field of two boreholes or more, the list `[1]` is accepted and all boreholes but the first are dropped. -/
theorem setup_drops_boreholes (b : Borehole) (bs : List Borehole) :
    setup (b :: bs).length (.list [1]) .uniform = some ([1], [[1]]) ∧ segmentList (b :: bs) [1] [[1]] = b.segments [1] ∧ (segmentList (b :: bs) [1] [[1]]).length = 1 := by
  have e : segmentList (b :: bs) [1] [[1]] = b.segments [1] := by simp [segmentList]
  refine ⟨?_, e, by rw [e, segments_length]; rfl⟩
  simp [setup, boreSegments, formatRatios, fullRatios, uniformRatios, equalRatiosOk, shapesOk, ratioOk]

/-- Non-vacuity of C24 and C31: two boreholes with two segments and one. -/
example : ∃ (bs : List Borehole) (ns : List ℤ) (rs : List (List ℝ)), setup bs.length (.list [2, 1]) .uniform = some (ns, rs) ∧ ns.length = bs.length ∧ rs.length = bs.length ∧
    (∀ b ∈ bs, ¬ tilted b.tilt) ∧ (∀ b ∈ bs, b.rb = 1) ∧ (∀ b ∈ bs, 0 ≤ b.H) := by
  refine ⟨[⟨100, 4, 1, 0, 0, 0, 0⟩, ⟨50, 2, 1, 5, 0, 0, 0⟩], [2, 1], [[1 / 2, 1 / 2], [1]], ?_, rfl, rfl, ?_, ?_, ?_⟩
  · simp [setup, boreSegments, formatRatios, fullRatios, uniformRatios, equalRatiosOk, ratioOk]
    norm_num [List.replicate]
  · simp [tilted]
  · simp
  · simp

end Verif.Sol
